/-
The reverse derivation mapping of an unfolding: `Unfold.untransform` (`/repo/dyna/transform/unfold.py` 118-120, `undo` 78-81), which goes through the derivation mapping
of the fold that undoes it: `Fold.transform`, `__align_to_parent`, `par2def`, `bookkeeping` (`/repo/dyna/transform/fold.py` 53-140).

Derivations are the trees of `DUnfold`.  The programs: `A` is unfolded to `B`, and `undo` is the fold of `B` by the definitions `A`, whose rules are
those of `A` with the unfolded rule first.  By the routing of C81, `self.Transform(d_middle, self.defs)` in fold.py is `B.untransform` on each child, and
`self.defs.Transform(., self.parent)` is `B.transform`.
Simplified: a substitution that does not match (the result of `cover` is not checked, fold.py:131-132) is an exception here; the constructor of
derivations is not modelled (C80), nor the branch for folds that are not `partially_safe` (112-113).
-/
import Verif.DUnfold
import Verif.Fold
import Verif.Measure
import Verif.Reorder

set_option linter.unusedSectionVars false
set_option linter.unusedSimpArgs false

namespace Verif
open Tm Heap

namespace DFold
open DUnfold (Cfg)
variable {W : Type}

/-- what `Unfold.undo` uses: the unfolding, `par2def`, the records `align` and `remaining` of `bookkeeping`, and `dict(undo.align(A))`
(program.py:2174) -/
structure Undo (W : Type) where
  unf : Cfg W
  par2def : Nat → Option Nat
  book : Nat → Option (List (Nat × Nat) × List Nat)
  align : Nat → Option Nat

/-- the keys of `new2def` (unfold.py:70-72) -/
def Undo.inS (c : Undo W) (n : Nat) : Bool := decide (c.unf.kept.length ≤ n ∧ n < c.unf.new.length)

/-- the rules of `undo` (fold.py:24); that this is what `Fold.fold` gives is `C82_undo_rules` -/
def Undo.rules (c : Undo W) : List (WRule W) := match c.unf.old[c.unf.i]? with
  | some r => r :: c.unf.kept
  | none => []

/-- a child as it appears in the body of the ground rule `n.r` -/
def treeTm (code : W → Const) : DUnfold.Tree W → Tm
  | .const k => .con (code k)
  | .bi t => t
  | .node _ t _ => t

/-- the loop at 131-132 -/
def matchUp (f : Nat) (code : W → Const) (s : WRule W) (ks : List (DUnfold.Tree W)) : List (Nat × Nat) → Heap → Option Heap
  | [], h => some h
  | (i, k) :: al, h => match s.body[k]?, ks[i]? with
    | some l, some d => match Subst.coverF f h (Measure.litTm code l) (treeTm code d) with
      | some (some h') => matchUp f code s ks al h'
      | _ => none
    | _, _ => none

mutual
/-- renumbering by the alignment of equal programs (program.py:2170-2178) -/
def renum (al : Nat → Option Nat) : DUnfold.Tree W → Option (DUnfold.Tree W)
  | .const k => some (.const k)
  | .bi t => some (.bi t)
  | .node n x ks => match al n, renumL al ks with
    | some m, some ls => some (.node m x ls)
    | _, _ => none
def renumL (al : Nat → Option Nat) : List (DUnfold.Tree W) → Option (List (DUnfold.Tree W))
  | [] => some []
  | d :: ds => match renum al d, renumL al ds with
    | some e, some es => some (e :: es)
    | _, _ => none
end

/-- `n.body[l]` for a list of positions (term.py:194-196) -/
def at_ (ks : List (DUnfold.Tree W)) (l : List Nat) : Option (List (DUnfold.Tree W)) := allSome (l.map fun i => ks[i]?)

variable [DecidableEq W]

/-- `undo.transform(d)` (fold.py:103-140) -/
def F (code : W → Const) (c : Undo W) : Nat → DUnfold.Tree W → Option (DUnfold.Tree W)
  | 0, _ => none
  | _ + 1, .const k => some (.const k)
  | _ + 1, .bi t => some (.bi t)
  | f + 1, .node n x ks =>
    if !c.inS n then                                                                    -- 105-108
      match c.unf.new[n]?, allSome (ks.map (F code c f)) with
      | some R, some ls => (c.rules.idxOf? R).map fun I => .node I x ls
      | _, _ => none
    else
      match c.par2def n, c.book n with                                                  -- 117, 121
      | some D, some (al, rem) =>
        match c.unf.old[D]?, at_ ks (rem.filter (· ≤ c.unf.j)), at_ ks ((al.map Prod.fst).insertionSort (· ≤ ·)),
            at_ ks (rem.filter fun i => decide (i > c.unf.j)) with                      -- 118, 124-126
        | some s, some left, some middle, some right =>
          match matchUp f code s ks al (fun _ => none) with                             -- 130-132
          | none => none
          | some θ =>
            match Subst.callF θ f s.head, allSome (middle.map fun d => (F code c f d).bind (renum c.align)) with   -- 136
            | some y, some ms => match DUnfold.tr c.unf (.node D y ms) with             -- 135-137
              | none => none
              | some m => (allSome ((left ++ m :: right).map (F code c f))).map fun ls => .node 0 x ls   -- 139
            | _, _ => none
        | _, _, _, _ => none
      | _, _ => none

/-- `B.untransform(d)` (unfold.py:118-120) -/
def U (code : W → Const) (c : Undo W) (f : Nat) (d : DUnfold.Tree W) : Option (DUnfold.Tree W) := (F code c f d).bind (renum c.align)

/-- a rule as `Rule` of terms -/
def ruleTm (code : W → Const) (r : WRule W) : Rule := ⟨r.head, r.body.map (Measure.litTm code)⟩

/-- `bookkeeping[P]` (fold.py:91-96): the fold of rule `P` by the definition `D` that the loop over the set ends with (`pick`) -/
def bookOf (f : Nat) (ord : List Nat → List Nat) (code : W → Const) (pick : List Reorder.Folded → Option Reorder.Folded) (P D : WRule W) :
    Option (List (Nat × Nat) × List Nat) :=
  match Reorder.foldsBy f ord (ruleTm code P) (ruleTm code D) with
  | none => none
  | some l => (pick l).map fun t => (t.align, t.remaining)

end DFold
end Verif
