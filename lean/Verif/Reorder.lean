/-
Building a derivation: the constructor of `Derivation` (`/repo/dyna/derivations.py` 24-40) and `reorder_subgoals` (455-488), with
`Rule.folds_by` (`/repo/dyna/rule.py` 105-175) and `FoldedRule` (180-199).

The children of a derivation are kept abstract: `tm` is what stands for a child in the instantiated rule (the item of a derivation, or the
value itself).  `Derivation.SAFE` is true (derivations.py:501).  An outer `none` means that fuel ran out, an inner `none`
an exception (`AssertionError`, `ValueError`, `IndexError`).  Terms are without bound variables, so `==` is structural.
-/
import Verif.RuleEq
import Mathlib.Data.List.Sort

set_option linter.unusedSectionVars false
set_option linter.unusedSimpArgs false

namespace Verif
open Tm Heap

namespace Reorder

/-- a `FoldedRule` (rule.py:180-199) without its head: the new subgoal, the rest of the body, and the records `align` and `remaining` -/
structure Folded where
  subgoal : Tm
  rest : List Tm
  align : List (Nat × Nat)
  remaining : List Nat

/-- one way to cover in `r.folds_by(R)` (rule.py:110-173); the inner `none`: rejected (172) -/
def foldOne (f : Nat) (r R : Rule) (c : Product.Res) : Option (Option Folded) :=
  match Subst.callF c.S f R.head, allSome (R.body.map (Subst.callF c.S f)), allSome (c.R.map fun k => r.body[k]?) with   -- 111, 114
  | some head, some body, some rest =>
    let annoying := (vars head \ varsL body) \ varsL rest                               -- 139
    let head' := head.sub fun n => if n ∈ annoying then .con (.str "junk") else .var n  -- 141
    let inside := varsL body \ vars head'                                               -- 169
    let outside := vars r.head ∪ varsL rest                                             -- 170
    some (if Disjoint inside outside then some ⟨head', rest, c.A, c.R⟩ else none)
  | _, _, _ => none

/-- `folds.add(t)` (173): a set keeps the first of equal elements; rules are equal if head and body are -/
def addF (l : List Folded) (t : Folded) : List Folded :=
  if l.any fun u => decide (u.subgoal = t.subgoal) && decide (u.rest = t.rest) then l else l ++ [t]

/-- `r.folds_by(R)` (105-175) -/
def foldsBy (f : Nat) (ord : List Nat → List Nat) (r R : Rule) : Option (List Folded) :=
  match Product.covers f ord R.body r.body with
  | none => none
  | some cs => (collect (fun c => (foldOne f r R c).map Option.toList) cs).map (List.foldl addF [])

/-- the numbers in `[... for i, j in sorted(t.align.items())]` (derivations.py:478, 480): the second components -/
def order (t : Folded) : List Nat := (t.align.insertionSort fun a b => a.1 ≤ b.1).map Prod.snd

variable {κ : Type}

/-- `reorder_subgoals(D, r, R)` (455-488) for the children `kids` of `D` -/
def reorder (f : Nat) (ord : List Nat → List Nat) (kids : List κ) (r R : Rule) : Option (Option (List κ)) :=
  match foldsBy f ord r R with
  | none => none
  | some [t] =>
    if t.remaining ≠ [] then some none else                                             -- 476
    match allSome ((order t).map fun j => kids[j]?), allSome ((order t).map fun j => r.body[j]?) with   -- 478
    | some bs, some b => match Subst.coversF f R.tm (Rule.mk r.head b).tm with          -- 480
      | none => none
      | some true => some (some bs)
      | some false => some none
    | _, _ => some none
  | some _ => some none                                                                 -- 462-470, 474

/-- the children of `Derivation(Rule(head, *kids), p, I)` (derivations.py:24-40), where `R` is `p.rules[I]` -/
def construct (f : Nat) (ord : List Nat → List Nat) (R : Rule) (head : Tm) (tm : κ → Tm) (kids : List κ) : Option (Option (List κ)) :=
  let r : Rule := ⟨head, kids.map tm⟩                                                   -- 30
  match Subst.coversF f R.tm r.tm with
  | none => none
  | some true => some (some kids)                                                       -- 36-37
  | some false => reorder f ord kids r R                                                -- 39

end Reorder
end Verif
