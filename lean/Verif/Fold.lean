/-
Folding: `/repo/dyna/transform/fold.py` `Fold` (9-46, the checks `partially_safe` and `safe_by_rev`),
`/repo/dyna/program.py` `__sub__` (388-392), `manual_fold` and `basic_fold` (1572-1585), `folds_by` (1687-1698).
`Rule.folds_by` is in `Verif.Measure`, the search for folds in `Verif.FoldSearch`.

Rules carry semiring values (`WRule`).  Program equality is the model of C17 over an arbitrary rule comparison
`o`; `C34_rule_equality` says that the rule comparison of C16 is of the kind assumed.
Not modelled here: the derivation mappings (C71, C82) and the measures (C49).
-/
import Verif.Unfold
import Verif.RuleEq
import Mathlib.Data.Finset.Sort

set_option linter.unusedSectionVars false
set_option linter.unusedSimpArgs false

namespace Verif
open Tm Heap
open Solver (noHeap forEach)

namespace Fold
open Unfold (Prog US Ops unfold)
variable {W : Type}

/-- `p - S` (program.py:388-392): the positions in `S` are popped from the highest to the lowest -/
def minus {α : Type} (l : List α) (S : Finset Nat) : List α := (S.sort (· ≥ ·)).foldl (fun l i => l.eraseIdx i) l

/-- the program built by `Fold` (fold.py:24) -/
def fold (p : Prog W) (r : WRule W) (S : Finset Nat) : Prog W := ⟨r :: minus p.rules S, p.inputs⟩

section
variable [One W] [DecidableEq W] {S' : Type} [DecidableEq S']

/-- `partially_safe` (fold.py:27-30, `u` 37-40); `none` if fuel runs out or the unfolding raises an exception -/
def partiallySafe (f : Nat) (o : RuleOps (WRule W) S') (ops : Ops) (inf : W) (k : Nat) (p defs : Prog W) (r : WRule W)
    (S : Finset Nat) (j : Nat) : Option Bool :=
  match unfold f ops inf k (fold p r S) defs 0 j with
  | some (u, _, .done) => some (o.progEq false p.rules u)
  | _ => none

/-- `safe_by_rev` (fold.py:32-35, `rev` 42-45): the folded program is unfolded against itself -/
def safeByRev (f : Nat) (o : RuleOps (WRule W) S') (ops : Ops) (inf : W) (k : Nat) (p : Prog W) (r : WRule W)
    (S : Finset Nat) (j : Nat) : Option Bool :=
  match unfold f ops inf k (fold p r S) (fold p r S) 0 j with
  | some (u, _, .done) => some (o.progEq false u p.rules)
  | _ => none

/-- `self.folds_by(r, j, defs)` for one `j` (program.py:1687-1698): the rules that unfolding `r` alone gives are
aligned with the rules of the program; `S` are the positions of their partners.  The inner `none` means that no
fold is yielded, the outer one that fuel ran out or an exception was raised. -/
def foldsBy (f : Nat) (o : RuleOps (WRule W) S') (ord : List Nat → List Nat) (ops : Ops) (inf : W) (k : Nat)
    (p defs : Prog W) (r : WRule W) (j : Nat) : Option (Option (Finset Nat × Prog W)) :=
  match unfold f ops inf k ⟨[r], []⟩ defs 0 j with
  | some (u, _, .done) =>
    let A := (o.align ord p.rules u).filter fun a => a.2.isSome
    if A.all fun a => a.1.isSome then
      let S := (A.filterMap Prod.fst).toFinset
      some (some (S, fold p r S))
    else some none
  | _ => none

end
end Fold
end Verif
