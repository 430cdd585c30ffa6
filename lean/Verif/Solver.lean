/-
The ground agenda solver: class `Solver` of `/repo/dyna/execute/solver.py` (20-168) and the parts of
`BaseSolver` of `/repo/dyna/execute/base.py` it uses (`__call__` 79-93, `join` 101-111,
`ground_out_rule` 113-117, `init_rule` 119-133, `load_data` 137-155).

Rule bodies may contain semiring constants, ordinary subgoals, `X = Y` and comparisons; other builtins
(`is`, `$not_matches`, delayed constraints) are not modelled here.  Everything that unifies runs through
the destructive `unify` of `Verif.Heap`: a generator is modelled by running its consumer at every yield.
Exceptions are the signals `exc n`; an outer `none` means that fuel ran out.

Simplifications: the integer keys of `intern` are replaced by the terms they stand for; the agenda pops an
arbitrary entry (`AgendaType` and priorities only decide which); `fresh(r)` in `init_rule` is dropped, the
variables of a program rule being unbound at that point; time limits and debug output are dropped.
-/
import Verif.Chart
import Mathlib.Algebra.Ring.Defs
import Mathlib.Algebra.BigOperators.Group.List.Basic

set_option linter.unusedSectionVars false
set_option linter.unusedSimpArgs false

namespace Verif
open Tm Heap

/-- an element of a rule body: a semiring value, an ordinary subgoal, `x = y`, or a comparison
(`cmps`, builtin.py:57-63) given by its truth table on ground terms -/
inductive BLit (K : Type)
  | val (k : K)
  | sub (t : Tm)
  | eq (x y : Tm)
  | cmp (o : Tm → Tm → Bool) (x y : Tm)

/-- `Rule` (rule.py:22-37) -/
structure SRule (K : Type) where
  head : Tm
  body : List (BLit K)

namespace Solver
variable {K : Type}

/-- exceptions -/
abbrev instFault : Sig := .exc 1
abbrev limitation : Sig := .exc 2
abbrev keyError : Sig := .exc 3

/-- `for a in l: body(a)` -/
def forEach {α S : Type} : List α → (α → Body S) → Body S
  | [], _, h, s => some (h, s, .done)
  | a :: l, b, h, s => match b a h s with
    | none => none
    | some (h', s', .done) => forEach l b h' s'
    | some r => some r

/-- `join(xs, value)` (base.py:101-111) with `lookup_vals` (solver.py:123-168) inlined.  The list `acc`
holds the factors of `value` in order (`tupleone` and `one` are both started from the empty list).
`cand q` are the stored items the index offers for the resolved query `q` (`Verif.Chart`). -/
def joinF {S : Type} [One K] (f : Nat) (chart : Dict Tm K) (cand : Tm → List Tm) :
    List (BLit K) → List K → (List K → Body S) → Body S
  | [], acc, k, h, s => k acc h s
  | .val c :: xs, acc, k, h, s => joinF f chart cand xs (acc ++ [c]) k h s                 -- 127-129
  | .eq x y :: xs, acc, k, h, s => unifyF f x y (joinF f chart cand xs (acc ++ [1]) k) h s -- 148-151
  | .cmp o x y :: xs, acc, k, h, s =>                                                      -- 153-161
    match groundF h f x, groundF h f y, derefF h f x, derefF h f y with
    | some true, some true, some x', some y' => if o x' y' then joinF f chart cand xs (acc ++ [1]) k h s else some (h, s, .done)
    | some _, some _, some _, some _ => some (h, s, instFault)
    | _, _, _, _ => none
  | .sub q :: xs, acc, k, h, s =>
    match derefF h f q with
    | none => none
    | some (.app l) =>                                                                     -- 167-168, 202-204
      forEach (cand (.app l)) (fun x => unifyF f x q (fun h s =>
        match derefF h f q with
        | none => none
        | some q' => match Dict.get chart q' with
          | none => some (h, s, keyError)
          | some v => joinF f chart cand xs (acc ++ [v]) k h s)) h s
    | some _ => some (h, s, instFault)                                                     -- 131-132

/-- the buffers changed by `update`: `change`, `agenda`, `pushes` (solver.py:29-40) -/
structure Chg (K : Type) where
  change : Dict Tm K
  agenda : Dict Tm Int
  pushes : Int

/-- the priority of a term (63-68): by default the negated number of pushes; `none` prunes -/
def prioOf (prio : Option (Tm → Option Int)) (pushes : Int) (t : Tm) : Option Int :=
  match prio with
  | none => some (-pushes)
  | some p => p t

/-- lines 73-77 -/
def plus [Add K] : Option K → K → K
  | none, c => c
  | some d, c => d + c

/-- `update(item, Δ)` (53-79) -/
def update [Add K] (prio : Option (Tm → Option Int)) (f : Nat) (item : Tm) (c : K) : Body (Chg K) := fun h s =>
  match groundF h f item, derefF h f item with
  | some false, some _ => some (h, s, limitation)
  | some true, some t =>
    match prioOf prio (s.pushes + 1) t with
    | none => some (h, { s with pushes := s.pushes + 1 }, .done)
    | some p => some (h, ⟨s.change.set t (plus (s.change.get t) c), s.agenda.set t p, s.pushes + 1⟩, .done)
  | _, _ => none

/-- the terms of a body -/
def litTerms : BLit K → List Tm
  | .val _ => []
  | .sub t => [t]
  | .eq x y => [x, y]
  | .cmp _ x y => [x, y]

/-- `multiple(r)` (program.py:1202-1210): `inf` is `Semiring.multiple(inf)` -/
def multiple [One K] (inf : K) (f : Nat) (h : Heap) (r : SRule K) : Option K :=
  match derefF h f (.app (r.body.flatMap litTerms)), derefF h f r.head with
  | some b, some hd => some (if vars b \ vars hd = ∅ then 1 else inf)
  | _, _ => none

/-- the constants of a solver -/
structure Cfg (K : Type) where
  rules : List (SRule K)
  prio : Option (Tm → Option Int)
  approx : K → K → Bool       -- `approx_equal` (base.py:65-74)
  inf : K

variable [Semiring K]

/-- `init_rule(r)` (base.py:119-133) against the current chart -/
def initRule (g : Cfg K) (f : Nat) (chart : Dict Tm K) (cand : Tm → List Tm) (r : SRule K) : Body (Chg K) :=
  joinF f chart cand r.body [] fun P h s =>
    match multiple g.inf f h r with
    | none => none
    | some m => update g.prio f r.head (P.foldl (· * ·) 1 * m) h s

/-- `z == a` (103) -/
def litEq (h : Heap) (f : Nat) (a : Tm) : BLit K → Option Bool
  | .sub t => eqF h f t a
  | _ => some false

/-- the product of lines 101-108 -/
def deltaProd (f : Nat) (h : Heap) (a : Tm) (i : Nat) (old Δ : K) : List (BLit K) → List K → Nat → K → Option K
  | [], _, _, c => some c
  | _ :: _, [], _, _ => none
  | z :: zs, p :: ps, j, c =>
    match litEq h f a z with
    | none => none
    | some b =>
      if j < i ∧ b = true then deltaProd f h a i old Δ zs ps (j + 1) (c * old)
      else if i = j then deltaProd f h a i old Δ zs ps (j + 1) (c * Δ)
      else deltaProd f h a i old Δ zs ps (j + 1) (c * p)

/-- functor and arity -/
def sigOf (t : Tm) : Option (Tm × Nat) := t.parts.map fun p => (p.1, p.2.length)

/-- is this body element listed in `ix_drivers[a.fn, a.arity]`? (45-48) -/
def driverAt (a : Tm) (r : SRule K) (p : BLit K × Nat) : Option (SRule K × Nat × Tm) :=
  match p.1 with
  | .sub t => if sigOf t = sigOf a then some (r, p.2, t) else none
  | _ => none

/-- `ix_drivers[a.fn, a.arity]` (44-48, 114) -/
def drivers (rules : List (SRule K)) (a : Tm) : List (SRule K × Nat × Tm) :=
  rules.flatMap fun r => r.body.zipIdx.filterMap (driverAt a r)

/-- the loop 99-109 over `drive_rules(a, old, Δ)` (112-121) -/
def drive (g : Cfg K) (f : Nat) (chart : Dict Tm K) (cand : Tm → List Tm) (a : Tm) (old Δ : K) : Body (Chg K) :=
  forEach (drivers g.rules a) fun d =>
    unifyF f a d.2.2 (joinF f chart cand d.1.body [] fun P h s =>
      match deltaProd f h a d.2.1 old Δ d.1.body P 0 1 with
      | none => none
      | some c => update g.prio f d.1.head c h s)

/-- the fields of a solver -/
structure St (K : Type) where
  chart : Dict Tm K
  chg : Chg K
  inited : List Nat

def St.empty : St K := ⟨[], ⟨[], [], 0⟩, []⟩

/-- no variable is bound outside of the generators -/
def noHeap : Heap := fun _ => none

/-- one iteration of the loop 83-109 for the popped item `a` -/
def popF (g : Cfg K) (f : Nat) (cand : Dict Tm K → Tm → List Tm) (st : St K) (a : Tm) : Option (St K × Sig) :=
  match st.chg.change.get a with
  | none => some (st, keyError)
  | some Δ =>
    let s : Chg K := ⟨st.chg.change.del a, st.chg.agenda.del a, st.chg.pushes⟩
    let old := (st.chart.get a).getD 0
    let new := old + Δ
    if g.approx new old then some (⟨st.chart, s, st.inited⟩, .done)
    else
      let chart := st.chart.set a new
      match drive g f chart (cand chart) a old Δ noHeap s with
      | none => none
      | some (_, s', sig) => some (⟨chart, s', st.inited⟩, sig)

/-- the loop of line 82: `for r in self.program: self.init_rule(r)` -/
def initAll (g : Cfg K) (f : Nat) (cand : Dict Tm K → Tm → List Tm) : List (SRule K) → Nat → St K → Option (St K × Sig)
  | [], _, st => some (st, .done)
  | r :: rs, i, st =>
    if i ∈ st.inited then initAll g f cand rs (i + 1) st
    else match initRule g f st.chart (cand st.chart) r noHeap st.chg with
      | none => none
      | some (_, s', .done) => initAll g f cand rs (i + 1) ⟨st.chart, s', i :: st.inited⟩
      | some (_, s', sig) => some (⟨st.chart, s', i :: st.inited⟩, sig)

/-- the loop 149-154 of `load_data` -/
def loadAll (g : Cfg K) (f : Nat) : List (Tm × K) → St K → Option (St K × Sig)
  | [], st => some (st, .done)
  | (x, v) :: D, st => match update g.prio f x v noHeap st.chg with
    | none => none
    | some (_, s', .done) => loadAll g f D ⟨st.chart, s', st.inited⟩
    | some (_, s', sig) => some (⟨st.chart, s', st.inited⟩, sig)

/-- what the index offers: stored items, none twice, and at least those matching the query
(`Chart.cands`; see `C25_exact`) -/
def LawfulCand (cand : Dict Tm K → Tm → List Tm) : Prop :=
  ∀ chart f as, Dict.WF chart → (∀ x ∈ Dict.keys chart, Ground x) →
    (cand chart (.app (.con f :: as))).Nodup ∧
    (∀ x ∈ cand chart (.app (.con f :: as)), x ∈ Dict.keys chart) ∧
    (∀ x ∈ Dict.keys chart, InstanceOf x (.app (.con f :: as)) → x ∈ cand chart (.app (.con f :: as)))

/-- one iteration of the agenda loop, for any choice of the popped item and any enumeration order -/
def Pop (g : Cfg K) (st st' : St K) : Prop :=
  ∃ f cand a, LawfulCand cand ∧ a ∈ Dict.keys st.chg.agenda ∧ popF g f cand st a = some (st', .done)

/-- `_forward_chaining()` (81-110) ending normally -/
def ForwardChaining (g : Cfg K) (st st' : St K) : Prop :=
  ∃ f cand st1, LawfulCand cand ∧ initAll g f cand g.rules 0 st = some (st1, .done) ∧
    Relation.ReflTransGen (Pop g) st1 st' ∧ st'.chg.agenda = []

/-- a call of the solver on a data program (base.py:79-93, 137-155): the data program is solved by a
solver of its own, without priorities, and its chart is loaded -/
def Call (g : Cfg K) (data : List (SRule K)) (st st' : St K) : Prop :=
  ∃ f d st1, ForwardChaining ⟨data, none, g.approx, g.inf⟩ St.empty d ∧
    loadAll g f d.chart st = some (st1, .done) ∧ ForwardChaining g st1 st'

end Solver
end Verif
