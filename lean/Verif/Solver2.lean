/-
The nonground agenda solver: class `Solver` of `/repo/dyna/execute/solver2.py` (18-192) and the parts of
`BaseSolver` of `/repo/dyna/execute/base.py` it uses (`__call__` 79-93, `join` 101-111, `ground_out_rule` 113-117,
`init_rule` 119-133, `load_data` 137-155).

Items may contain variables.  An item of the chart is renamed (`fresh`) before it is unified with anything; fresh
variables are numbered from the allocation mark `k` on.  Everything that unifies runs through the destructive
`unify` of `Verif.Heap`: a generator is modelled by running its consumer at every yield.  Exceptions are the signals
`exc n`; an outer `none` means that fuel ran out.

Simplifications: the integer keys of `intern` are replaced by the (canonical) terms they stand for; the agenda pops
an arbitrary entry (`AgendaType` and priorities only decide which); time limits and debug output are dropped.  Not
modelled (signal `unsupported`): `BuiltinConstraint` objects, `$not_matches`, `is`, and a subgoal that is a variable
bound to a constant.  The program is the one `linearize` (line 24, `Verif.Linearize`) returned.
-/
import Verif.Unfold

set_option linter.unusedSectionVars false
set_option linter.unusedSimpArgs false

namespace Verif
open Tm Heap
open Solver (noHeap forEach instFault keyError plus prioOf)
open Unfold (Ops freshR derefR unmodelled unsupported)

namespace Solver2
variable {W : Type}

/-- the buffers changed by `update` (27-37), and the allocation mark of variables -/
structure Chg (W : Type) where
  change : Dict Tm W
  agenda : Dict Tm Int
  pushes : Int
  k : Nat
deriving DecidableEq

/-- the constants of a solver; `cv i` is the `i`-th interned variable of `canonicalize` -/
structure Cfg (W : Type) where
  rules : List (WRule W)
  ops : Ops
  prio : Option (Tm → Option Int)
  approx : W → W → Bool       -- `approx_equal` (base.py:65-74)
  inf : W                     -- `Semiring.multiple(inf)`
  cv : Nat → Nat

/-- lines 187-192: match the query against every item of the chart -/
def scan (f : Nat) (chart : Dict Tm W) (q : Tm) (k : W → Body (Chg W)) : Body (Chg W) :=
  forEach chart fun xv h s =>
    let x := freshP s.k xv.1
    unifyF f x.1 q (k xv.2) h { s with k := x.2 }

/-- `for v in self.lookup_vals(q): k(v)` (137-192) for a query that is not a constant -/
def lookupVals [One W] (f : Nat) (ops : Ops) (chart : Dict Tm W) (q : Tm) (k : W → Body (Chg W)) : Body (Chg W) := fun h s =>
  match snapF h f q with                                                                    -- 142
  | none => none
  | some (.var _) => some (h, s, instFault)                                                 -- 149-150
  | some (.con _) => some (h, s, unsupported)                                               -- 145-147
  | some (.app (.con c :: as)) =>
    if unmodelled c then some (h, s, unsupported)                                           -- 159-164, 182-185
    else if c = .str "=" then
      match as with
      | [x, y] => unifyF f x y (k 1) h s                                                    -- 166-170
      | _ => some (h, s, .exc 7)                                                            -- `x,y = q.args`
    else
      match ops c, as with
      | some o, [x, y] =>                                                                   -- 172-180
        match groundF h f x, groundF h f y, derefF h f x, derefF h f y with
        | some true, some true, some x', some y' => if o x' y' then k 1 h s else some (h, s, .done)
        | some _, some _, some _, some _ => some (h, s, instFault)
        | _, _, _, _ => none
      | _, _ => scan f chart q k h s                                                        -- 187-192
  | some (.app _) => some (h, s, unsupported)                                               -- functors are constants

/-- `for v in self.join(xs, value): k(v)` (base.py:101-111) -/
def join [Mul W] [One W] (f : Nat) (ops : Ops) (chart : Dict Tm W) : List (Lit W) → W → (W → Body (Chg W)) → Body (Chg W)
  | [], value, k => k value
  | .val c :: xs, value, k => join f ops chart xs (value * c) k                             -- 145-147
  | .sub q :: xs, value, k => lookupVals f ops chart q fun v => join f ops chart xs (value * v) k

/-- `update(item, Δ)` (51-84) -/
def update [Add W] (g : Cfg W) (f : Nat) (item : Tm) (c : W) : Body (Chg W) := fun h s =>
  match freshF s.k h f item with                                                            -- 60
  | none => none
  | some (t, k) =>
    let t := canonP g.cv t                                                                  -- 61
    match prioOf g.prio (s.pushes + 1) t with
    | none => some (h, { s with pushes := s.pushes + 1, k := k }, .done)
    | some p => some (h, ⟨s.change.set t (plus (s.change.get t) c), s.agenda.set t p, s.pushes + 1, k⟩, .done)

/-- variables of a body, as computed by `term_vars` -/
def bodyVs : List (Lit W) → Finset Nat
  | [] => ∅
  | .val _ :: b => bodyVs b
  | .sub t :: b => vars t ∪ bodyVs b

/-- `multiple(r)` (program.py:1202-1210) under the current bindings -/
def multiple [One W] (inf : W) (f : Nat) (h : Heap) (r : WRule W) : Option W :=
  (derefR h f r).map fun r => if bodyVs r.body \ vars r.head = ∅ then 1 else inf

section
variable [Mul W] [One W] [Add W]

/-- what both loops do with a value: multiply by `multiple(r)` and update the head (121, 135; base.py:117, 133) -/
def emit (g : Cfg W) (f : Nat) (r : WRule W) (v : W) : Body (Chg W) := fun h s =>
  match multiple g.inf f h r with
  | none => none
  | some m => update g f r.head (v * m) h s

/-- `init_rule(r)` (base.py:119-133) against the current chart -/
def initRule (g : Cfg W) (f : Nat) (chart : Dict Tm W) (r : WRule W) : Body (Chg W) := fun h s =>
  let r' := freshR s.k r
  join f g.ops chart r'.1.body 1 (emit g f r'.1) h { s with k := r'.2 }

/-- one position of the loop of `drive_rule` (131-135) -/
def driveAt (g : Cfg W) (f : Nat) (chart : Dict Tm W) (a : Tm) (Δ : W) (r : WRule W) (bi : Lit W × Nat) : Body (Chg W) := fun h s =>
  match bi.1 with
  | .val _ => some (h, s, .done)
  | .sub b => unifyF f a b (join f g.ops chart (r.body.set bi.2 (.val Δ)) 1 (emit g f r)) h s

/-- the loop 120-121 over `drive_rules(fresh(a), old, Δ)` (124-135) -/
def drive (g : Cfg W) (f : Nat) (chart : Dict Tm W) (a : Tm) (Δ : W) : Body (Chg W) := fun h s =>
  let a' := freshP s.k a
  forEach g.rules (fun r => forEach r.body.zipIdx (driveAt g f chart a'.1 Δ r)) h { s with k := a'.2 }

end

/-- the fields of a solver; `inited` are the numbers of the rules in `initialized` -/
structure St (W : Type) where
  chart : Dict Tm W
  chg : Chg W
  inited : List Nat
deriving DecidableEq

variable [Semiring W]

/-- one iteration of the loop 104-121 for the popped item `a` -/
def popF (g : Cfg W) (f : Nat) (st : St W) (a : Tm) : Option (St W × Sig) :=
  match st.chg.change.get a with
  | none => some (st, keyError)
  | some Δ =>
    let s : Chg W := ⟨st.chg.change.del a, st.chg.agenda.del a, st.chg.pushes, st.chg.k⟩
    let old := (st.chart.get a).getD 0
    let new := old + Δ
    if g.approx new old then some (⟨st.chart, s, st.inited⟩, .done)
    else
      let chart := st.chart.set (canonP g.cv a) new                                         -- 116, 86-100
      match drive g f chart a Δ noHeap s with
      | none => none
      | some (_, s', sig) => some (⟨chart, s', st.inited⟩, sig)

/-- line 103: `for r in self.program: self.init_rule(r)` -/
def initAll (g : Cfg W) (f : Nat) : List (WRule W) → Nat → St W → Option (St W × Sig)
  | [], _, st => some (st, .done)
  | r :: rs, i, st =>
    if i ∈ st.inited then initAll g f rs (i + 1) st
    else match initRule g f st.chart r noHeap st.chg with
      | none => none
      | some (_, s', .done) => initAll g f rs (i + 1) ⟨st.chart, s', i :: st.inited⟩
      | some (_, s', sig) => some (⟨st.chart, s', i :: st.inited⟩, sig)

/-- the loop 149-154 of `load_data` -/
def loadAll (g : Cfg W) (f : Nat) : Dict Tm W → St W → Option (St W × Sig)
  | [], st => some (st, .done)
  | (x, v) :: D, st => match update g f x v noHeap st.chg with
    | none => none
    | some (_, s', .done) => loadAll g f D ⟨st.chart, s', st.inited⟩
    | some (_, s', sig) => some (⟨st.chart, s', st.inited⟩, sig)

/-- one iteration of the agenda loop, popping some item that satisfies `P` -/
def Pop (g : Cfg W) (P : Tm → Prop) (st st' : St W) : Prop :=
  ∃ f a, P a ∧ a ∈ Dict.keys st.chg.agenda ∧ popF g f st a = some (st', .done)

/-- `_forward_chaining()` (102-122) ending normally, all items popped satisfying `P`
(`P` is `fun _ => True` if nothing is asked) -/
def ForwardChaining (g : Cfg W) (P : Tm → Prop) (st st' : St W) : Prop :=
  ∃ f st1, initAll g f g.rules 0 st = some (st1, .done) ∧ Relation.ReflTransGen (Pop g P) st1 st' ∧ st'.chg.agenda = []

/-- a solver before anything happened; the variables of its rules are below `k` -/
def St.empty (k : Nat) : St W := ⟨[], ⟨[], [], 0, k⟩, []⟩

/-- a call of the solver (base.py:79-93, 137-155): the data program is solved by a solver of its own, without
priorities, and its chart is loaded -/
def Call (g : Cfg W) (data : List (WRule W)) (P Q : Tm → Prop) (d st st' : St W) : Prop :=
  ∃ k f st1, (∀ r ∈ data, ∀ n ∈ vars r.head ∪ bodyVs r.body, n < k) ∧
    ForwardChaining { g with rules := data, prio := none } Q (St.empty k) d ∧
    loadAll g f d.chart st = some (st1, .done) ∧ ForwardChaining g P st1 st'

end Solver2
end Verif
