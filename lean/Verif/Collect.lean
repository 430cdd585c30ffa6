/-
Collections of programs: `/repo/dyna/programs.py` `eurekas` (39-48), `folds_seq` and `_folds_seq` (68-91), `unfolds_first`, `unfolds_seq`
and `_unfolds_seq` (93-110).

As in SearchMoves.lean, a program object is given by the moves that made it, and the enumerations of candidates are given by functions (`Cands`).  `_folds_seq`
goes over the same programs and rules as `_drive_folds` of the search, and `hook` (`/repo/dyna/program.py` 1595-1608) is the move of `_drive_eureka`.
The set of factors in `eurekas` (44) is a list.  The case that making a program raises an exception, which ends the enumeration, is left out.
-/
import Verif.SearchMoves

set_option linter.unusedSectionVars false
set_option linter.unusedSimpArgs false

namespace Verif
open Tm Heap

namespace Collect
open Unfold (Prog)
open SearchMoves
variable {W : Type}

/-- a `ProgramCollection`, each program by its moves, newest first -/
abbrev Coll (W : Type) := List (List (Move W))

/-- the enumerations, and the number of the name that `hook(i, fs)` of a program generates -/
structure Gens (W : Type) where
  g : Cands W
  name : List (Move W) → Nat → List Nat → Nat

/-- the programs that the three methods add for a program; `P :: L` is its lineage, nearest first -/
inductive Op
  | eurekas
  | foldsSeq
  /-- `first`: `unfolds_first` -/
  | unfoldsSeq (first : Bool)

/-- `p.hook(i, fs)` for all rules and factors (42-47) -/
def eurekasOf (n : Gens W) (ms : List (Move W)) (P : Stage W) : Coll W :=
  P.R.prog.rules.zipIdx.flatMap fun ri => (n.g.elims ri.1).map fun fs => .hook (n.g.fuel ms) (n.g.mark ms) ri.2 fs (n.name ms ri.2 fs) :: ms

/-- `_folds_seq(p)` (75-91) -/
def foldsOf (n : Gens W) (ms : List (Move W)) (P : Stage W) (L : List (Stage W)) : Coll W := (driveFolds n.g ⟨ms, [], []⟩ P (P :: L)).map State.ms

/-- the loop over the lineage from the oldest program on (107-110); `d` is the number of a program -/
def unfoldsBy (f : Nat) (first : Bool) (x : Tm) : List (Stage W × Nat) → List Nat
  | [] => []
  | D :: l => if isItem f D.1.R.prog x = some true then D.2 :: (if first then [] else unfoldsBy f first x l) else unfoldsBy f first x l

/-- `_unfolds_seq(p, first_only)` (103-110) -/
def unfoldsOf (n : Gens W) (first : Bool) (ms : List (Move W)) (P : Stage W) (L : List (Stage W)) : Coll W :=
  P.R.prog.rules.zipIdx.flatMap fun ri => ri.1.body.zipIdx.flatMap fun xj => match xj.1 with
    | .val _ => []
    | .sub x =>
      if n.g.inline P.R.prog x then
        (unfoldsBy (n.g.fuel ms) first x (P :: L).zipIdx.reverse).map fun d => .unfoldBy (n.g.fuel ms) (n.g.mark ms) d ri.2 xj.2 :: ms
      else []

section
variable [One W] [DecidableEq W] {S' : Type} [DecidableEq S']

/-- `eurekas`, `folds_seq`, `unfolds_seq`: the programs of the collection, and then the new ones (41, 69, 97) -/
def Op.apply (e : Env W S') (root : Prog W) (c : Nat) (n : Gens W) (op : Op) (C : Coll W) : Coll W :=
  C ++ C.flatMap fun ms => match run e (fun _ => 0) root c ms with
    | some (P :: L) => match op with
      | .eurekas => eurekasOf n ms P
      | .foldsSeq => foldsOf n ms P L
      | .unfoldsSeq first => unfoldsOf n first ms P L
    | _ => []

/-- a sequence of them, from the collection with the original program alone (`to_collection`, program.py:1732-1734) -/
def collect (e : Env W S') (root : Prog W) (c : Nat) (n : Gens W) (ops : List Op) : Coll W := ops.foldl (fun C op => op.apply e root c n C) [[]]

end
end Collect
end Verif
