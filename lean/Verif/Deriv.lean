/-
Derivation trees and their bottom-up enumeration: derivations.py.

`Derivation.base` (44-47), `value` (49-66), `size` (68-71), `height` (73-76), `dimension` (109-118),
`step_derivations` (319-341), `naive` (306-316), `seminaive` (344-356), `seminaive_update` (358-377),
`agenda` (380-408).

A derivation is a constant, a builtin that succeeded (`Derivation(Rule(r.body[j], b), p=None, I=None)`, 338),
or a rule of the program with derivations for its body (340, 375, 405).  The number of the rule is `i`, the
instantiated head is `head`.  A succeeded builtin keeps its instantiated arguments; its functor is the one of
the builtin in the rule above it and is not repeated.  `Derivation.__init__` (24-39) compares the derivation
with its rule; for a program without builtins the comparison succeeds.  `seminaive` and `agenda` do not wrap
builtins, so for a rule with a builtin the comparison fails and `reorder_subgoals` raises (455-485): this is
the signal `badOrder` here.
-/
import Verif.Naive

set_option linter.unusedSectionVars false
set_option linter.unusedSimpArgs false

namespace Verif
open Tm Heap

/-- a derivation tree -/
inductive Deriv (K : Type)
  | const (k : K)
  | bi (x y : Tm)
  | node (i : Nat) (head : Tm) (kids : List (Deriv K))

namespace Deriv
variable {K : Type}

/-- `base` (44-47) -/
def base : Deriv K → Bool
  | .const _ => true
  | .bi _ _ => true
  | .node _ _ _ => false

mutual
/-- `size` (68-71) -/
def size : Deriv K → Nat
  | .const _ => 0
  | .bi _ _ => 0
  | .node _ _ kids => 1 + sizeL kids
def sizeL : List (Deriv K) → Nat
  | [] => 0
  | d :: ds => size d + sizeL ds
end

mutual
/-- `height` (73-76) -/
def height : Deriv K → Nat
  | .const _ => 0
  | .bi _ _ => 0
  | .node _ _ kids => 1 + heightL kids
/-- `max(... for y in d) if d else 0` -/
def heightL : List (Deriv K) → Nat
  | [] => 0
  | d :: ds => max (height d) (heightL ds)
end

/-- the combination in `dimension` (111-116): `ds` is sorted and reversed, so its first two elements are the two
largest -/
def combine (ds : List Nat) : Nat :=
  match ds.mergeSort (fun a b => decide (b ≤ a)) with
  | [] => 0
  | [a] => a
  | a :: b :: _ => if a = b then 1 + a else a

mutual
/-- `dimension` (109-118) -/
def dimension : Deriv K → Nat
  | .const _ => 0
  | .bi _ _ => 0
  | .node _ _ kids => combine (dims kids)
def dims : List (Deriv K) → List Nat
  | [] => []
  | d :: ds => dimension d :: dims ds
end

/-- the results of `value`: a semiring value, or a `Product` (term.py:180-192) of them -/
inductive Val (K : Type)
  | one (k : K)
  | prod (ks : List K)

/-- `a * b` where the right operand is a `Product`: `Product.__mul__` and `__rmul__` (term.py:185-192) -/
def Val.mul : Val K → List K → List K
  | .one k, ks => k :: ks
  | .prod ks', ks => ks' ++ ks

mutual
/-- `value` (49-66); the body of a succeeded builtin is the constant `one` -/
def value [One K] : Deriv K → Val K
  | .const k => .one k
  | .bi _ _ => .prod (Val.mul (.one 1) [])
  | .node _ _ kids => .prod (valueL kids)
def valueL [One K] : List (Deriv K) → List K
  | [] => []
  | d :: ds => (value d).mul (valueL ds)
end

/-! ### Enumeration -/

open Solver (forEach noHeap)
open Query

/-- a chart of derivations: rules whose body is one derivation -/
abbrev DChart (K : Type) := List (Tm × Deriv K)

abbrev badOrder : Sig := .exc 9

/-- 335-338: results of builtins are wrapped -/
def wrapF (h : Heap) (f : Nat) : List (BLit K) → List (Deriv K) → Option (List (Deriv K))
  | .eq x y :: b, _ :: ds => match derefF h f x, derefF h f y, wrapF h f b ds with
    | some x', some y', some ds' => some (.bi x' y' :: ds')
    | _, _, _ => none
  | .cmp _ x y :: b, _ :: ds => match derefF h f x, derefF h f y, wrapF h f b ds with
    | some x', some y', some ds' => some (.bi x' y' :: ds')
    | _, _, _ => none
  | _ :: b, d :: ds => match wrapF h f b ds with
    | some ds' => some (d :: ds')
    | none => none
  | _, _ => some []

def isBuiltin : BLit K → Bool
  | .eq _ _ => true
  | .cmp _ _ _ => true
  | _ => false

/-- `add(r.head, Derivation(Rule(r.head, *ds), p=p, I=i))` (340) -/
def addD (f : Nat) (r : SRule K) (i : Nat) (P : List (Deriv K)) : Body (DChart K) := fun h s =>
  match groundF h f r.head, derefF h f r.head, wrapF h f r.body P with
  | some true, some x, some ds => some (h, s ++ [(x, .node i x ds)], .done)
  | some false, some _, some _ => some (h, s, Naive.nonground)
  | _, _, _ => none

/-- the same without wrapping (375, 405-406) -/
def addRaw (f : Nat) (r : SRule K) (i : Nat) (P : List (Deriv K)) : Body (DChart K) := fun h s =>
  if r.body.any isBuiltin then some (h, s, badOrder)
  else match groundF h f r.head, derefF h f r.head with
    | some true, some x => some (h, s ++ [(x, .node i x P)], .done)
    | some false, some _ => some (h, s, Naive.nonground)
    | _, _ => none

variable [One K]

/-- `chart.join(*body)` -/
def joinD {S : Type} (f : Nat) (src : Src (Deriv K)) (body : List (BLit K)) (k : List (Deriv K) → Body S) : Body S :=
  joinZ f .const (body.map fun z => (src, z)) [] k

/-- `step_derivations(p, chart)` (319-341) -/
def stepD (rules : List (SRule K)) (f : Nat) (chart : DChart K) : Option (DChart K × Sig) :=
  (forEach rules.zipIdx (fun p => joinD f ⟨chart, true⟩ p.1.body (addD f p.1 p.2)) noHeap []).map (·.2)

/-- the loop of `naive(p, T)` (306-316) -/
def naiveD (rules : List (SRule K)) (f : Nat) : Nat → DChart K → Option (DChart K × Sig)
  | 0, x => some (x, .done)
  | T + 1, x => match stepD rules f x with
    | none => none
    | some (x1, .done) => if x1.length = x.length then some (x, .done) else naiveD rules f T x1
    | some r => some r

/-- the loops of `seminaive_update(p, old, d)` (368-375) -/
def driveD (rules : List (SRule K)) (f : Nat) (old new d : DChart K) : Body (DChart K) :=
  forEach rules.zipIdx fun q => forEach (Naive.splits q.1.body) fun p =>
    lookupVals f .const ⟨d, false⟩ p.2.1 fun b =>
      joinD f ⟨new, true⟩ p.1 fun L => joinD f ⟨old, true⟩ p.2.2 fun R => addRaw f q.1 q.2 (L ++ [b] ++ R)

/-- the loop of `seminaive(p, T)` (347-356) -/
def semiD (rules : List (SRule K)) (f : Nat) : Nat → DChart K → DChart K → Option (DChart K × Sig)
  | 0, m, _ => some (m, .done)
  | T + 1, m, d => match driveD rules f m (m ++ d) d noHeap [] with
    | none => none
    | some (_, d', .done) => if d'.isEmpty then some (m ++ d, .done) else semiD rules f T (m ++ d) d'
    | some (_, _, sig) => some (m ++ d, sig)

/-- `seminaive(p, T)` (344-356) -/
def seminaiveD (rules : List (SRule K)) (f T : Nat) : Option (DChart K × Sig) :=
  match stepD rules f [] with
  | none => none
  | some (d, .done) => semiD rules f T [] d
  | some r => some r

/-- the state of `agenda(p)` (380-388); `out` are the derivations yielded so far -/
structure AgD (K : Type) where
  old : DChart K
  new : DChart K
  change : DChart K
  out : List (Deriv K)

/-- the loops over rules and subgoals 398-406 -/
def agLoops (rules : List (SRule K)) (f : Nat) (old new : DChart K) (u : Tm) (v : Deriv K) : Body (DChart K) :=
  forEach rules.zipIdx fun q => forEach (Naive.splits q.1.body) fun p h s =>
    match p.2.1 with
    | .sub t => unifyF f u t (joinD f ⟨new, true⟩ p.1 fun L => joinD f ⟨old, true⟩ p.2.2 fun R =>
        addRaw f q.1 q.2 (L ++ [v] ++ R)) h s
    | _ => some (h, s, .done)

/-- one iteration of the loop of `agenda(p)` (389-408) -/
def agStepD (rules : List (SRule K)) (f : Nat) (st : AgD K) : Option (AgD K × Sig) :=
  match st.change with
  | [] => some (st, .brk)
  | (u, v) :: change =>
    let new := st.new ++ [(u, v)]
    match agLoops rules f st.old new u v noHeap change with
    | none => none
    | some (_, change', .done) => some (⟨st.old ++ [(u, v)], new, change', st.out ++ [v]⟩, .done)
    | some (_, change', sig) => some (⟨st.old, new, change', st.out ++ [v]⟩, sig)

/-- the state before the loop (383-386) -/
def AgInitD (rules : List (SRule K)) (st : AgD K) : Prop :=
  ∃ f c, stepD rules f [] = some (c, .done) ∧ st = ⟨[], [], c, []⟩

/-- an iteration that ends normally -/
def AgStepD (rules : List (SRule K)) (st st' : AgD K) : Prop := ∃ f, agStepD rules f st = some (st', .done)

end Deriv
end Verif
