/-
Bottom-up evaluation by charts that are programs: `Program.step` (program.py:1167-1176), `fc` (883-891),
`seminaive` (1066-1078), `seminaive_update` (1080-1093), `agenda` (1033-1064), with `__setitem__`
(1246-1257), `update` (431-437) on constant rules, `pop(0)` (471-502), `constant_folding` of a chart (1431-1437, 2287-2341)
and `user_lookup` of one item (1212-1219).

The charts of range-restricted programs have ground heads and one constant per rule; by C21 such a program
under `update` behaves like a dictionary from heads to values, and this is how it is represented here.  A head
that is not ground when a rule fires is the signal `nonground` (unmodelled).  `dead c` stands for
`Semiring.metric(c, zero) <= 1e-7` (1449), `same` for `==` on charts, `close a b` for
`Semiring.metric(a, b) <= tol` (1053).
-/
import Verif.Query

set_option linter.unusedSectionVars false
set_option linter.unusedSimpArgs false

namespace Verif
open Tm Heap

namespace Naive
open Solver (forEach plus multiple noHeap)
open Query
variable {K : Type} [CommSemiring K]

abbrev nonground : Sig := .exc 7
abbrev unboundLocal : Sig := .exc 8

/-- a program with what it needs of its semiring -/
structure Cfg (K : Type) where
  rules : List (SRule K)
  dead : K → Bool
  inf : K
  same : Dict Tm K → Dict Tm K → Bool
  close : K → K → Bool

/-- `q.update(x, C)` for a ground item (431-437, 395-415): dead values are not added -/
def addTo (dead : K → Bool) (q : Dict Tm K) (x : Tm) (c : K) : Dict Tm K :=
  if dead c then q else q.set x (plus (q.get x) c)

/-- one pass of the loop of `q[r.head] = stream` (1249-1256) with the factors `P`: variables that occur in
no factor any more multiply by `multiple(inf)` (1252-1255) -/
def setItem (g : Cfg K) (f : Nat) (r : SRule K) (P : List K) : Body (Dict Tm K) := fun h q =>
  match multiple g.inf f h r, groundF h f r.head, derefF h f r.head with
  | some m, some true, some x => some (h, addTo g.dead q x (P.foldl (· * ·) 1 * m), .done)
  | some _, some false, some _ => some (h, q, nonground)
  | _, _, _ => none

/-- `step(chart)` (1167-1176) -/
def stepF (g : Cfg K) (f : Nat) (chart : Dict Tm K) : Option (Dict Tm K × Sig) :=
  (forEach g.rules (fun r => getItem f id ⟨chart, true⟩ r.body (setItem g f r)) noHeap []).map (·.2)

/-- `fc(max_iter=n)` (883-891): the loop, with the local variables `old` and `new` -/
def fcF (g : Cfg K) (f : Nat) : Nat → Dict Tm K → Option (Dict Tm K) → Option (Dict Tm K × Sig)
  | 0, _, none => some ([], unboundLocal)
  | 0, _, some new => some (new, .done)
  | n + 1, old, _ => match stepF g f old with
    | none => none
    | some (new, .done) => if g.same new old then some (new, .done) else fcF g f n new (some new)
    | some r => some r

/-- the ways to single out an element: `for k in range(len(body))` -/
def splits {α : Type} : List α → List (List α × α × List α)
  | [] => []
  | a :: l => ([], a, l) :: (splits l).map fun p => (a :: p.1, p.2.1, p.2.2)

/-- `constant_folding()` of a chart (2287-2341): dead values are dropped, the others summed by head -/
def foldChart (dead : K → Bool) (d : List (Tm × K)) : Dict Tm K := d.foldl (fun q e => addTo dead q e.1 e.2) []

/-- `seminaive_update(old, d)` (1080-1093) -/
def semiUpdate (g : Cfg K) (f : Nat) (old d : Dict Tm K) : Option (Dict Tm K × Dict Tm K × Sig) :=
  let new := foldChart g.dead (old ++ d)
  match forEach g.rules (fun r => forEach (splits r.body) fun p =>
      lookupVals f id ⟨d, false⟩ p.2.1 fun b =>
        getItem f id ⟨new, true⟩ p.1 fun L =>
          getItem f id ⟨old, true⟩ p.2.2 fun R => setItem g f r (L ++ [b] ++ R)) noHeap [] with
  | none => none
  | some (_, q, .done) => some (new, foldChart g.dead q, .done)
  | some (_, q, sig) => some (new, q, sig)

/-- the loop of `seminaive(T)` (1071-1078) -/
def semiF (g : Cfg K) (f : Nat) : Nat → Dict Tm K → Dict Tm K → Option (Dict Tm K × Sig)
  | 0, m, _ => some (m, .done)
  | T + 1, m, d => match semiUpdate g f m d with
    | none => none
    | some (m', d', .done) => if d'.isEmpty || g.same m m' then some (m', .done) else semiF g f T m' d'
    | some (m', _, sig) => some (m', sig)

/-- `seminaive(T)` (1066-1078) -/
def seminaive (g : Cfg K) (f T : Nat) : Option (Dict Tm K × Sig) :=
  match stepF g f [] with
  | none => none
  | some (d, .done) => semiF g f T [] d
  | some r => some r

/-- the three charts of `agenda` (1036-1039) -/
structure AgSt (K : Type) where
  old : Dict Tm K
  new : Dict Tm K
  change : Dict Tm K

/-- `user_lookup(x)` of a ground item: its value unless there is none or it is dead (1212-1219) -/
def live (dead : K → Bool) (d : Dict Tm K) (x : Tm) : Option K :=
  match d.get x with
  | none => none
  | some c => if dead c then none else some c

/-- `was.metric(now) <= tol` (567-610) for the values of one item: infinite when only one of them exists -/
def unchanged (close : K → K → Bool) : Option K → Option K → Bool
  | none, none => true
  | some a, some b => close a b
  | _, _ => false

/-- the loops 1055-1058 over rules and subgoals; only ordinary subgoals unify with an item -/
def agDrive (g : Cfg K) (f : Nat) (old new : Dict Tm K) (u : Tm) (Δ : K) : Body (Dict Tm K) :=
  forEach g.rules fun r => forEach (splits r.body) fun p h q =>
    match p.2.1 with
    | .sub t => unifyF f u t (getItem f id ⟨new, true⟩ p.1 fun L =>
        getItem f id ⟨old, true⟩ p.2.2 fun R => setItem g f r (L ++ [Δ] ++ R)) h q
    | _ => some (h, q, .done)

/-- one iteration of the loop 1044-1060 that pops the `i`-th rule of the change buffer; the code takes `i = 0`
(1049) and offers a random choice in a comment (1048) -/
def agStep (g : Cfg K) (f i : Nat) (st : AgSt K) : Option (AgSt K × Sig) :=
  match st.change[i]? with
  | none => some (st, .brk)
  | some (u, Δ) =>
    let change := st.change.eraseIdx i
    let new := addTo g.dead st.new u Δ
    if unchanged g.close (live g.dead st.new u) (live g.dead new u) then some (⟨st.old, new, change⟩, .done)
    else match agDrive g f st.old new u Δ noHeap change with
      | none => none
      | some (_, change', .done) => some (⟨addTo g.dead st.old u Δ, new, change'⟩, .done)
      | some (_, change', sig) => some (⟨st.old, new, change'⟩, sig)

/-- an iteration of `agenda` that ends normally, popping any rule -/
def AgStep (g : Cfg K) (st st' : AgSt K) : Prop := ∃ f i, agStep g f i st = some (st', .done)

/-- the state before the loop (1036-1039) -/
def AgInit (g : Cfg K) (st : AgSt K) : Prop := ∃ f c, stepF g f [] = some (c, .done) ∧ st = ⟨[], [], c⟩

end Naive
end Verif
