/-
The moves of the agenda-based search: `/repo/dyna/search/search.py` `drive` (195-216), `_drive_folds` (244-274), `_drive_unfold`
(276-299), `_drive_eureka` (301-340), and `check_measure` (170-178); `Program.lineage` (`/repo/dyna/program.py` 2044-2049),
`is_item` (532-533).

A program object is given by the moves that made it, newest first; `run` replays them and gives its lineage, each stage with its measure.
The unknowns of the measure are numbered along the lineage, `a` gives their values (see Measure.lean); `base` lists the rules that they
stand for.  The measure is computed for each program, without the cache over equal programs (`Reach.cached` in MeasureThm.lean).
The counter of generated names is global: between two moves of one lineage it may have been advanced by others, so that a
move has the number of its name with it.  In `_drive_folds` the definitions are renamed apart if they are the program itself (266),
which is left out.  Enumeration of candidates is given by functions: `elims` for the sets of subgoals to hide (333), `props` for
`fold_proposals`, `parts` for the set of rules that `folds_by` finds (FoldSearch.lean and Fold.lean), `inline` for `safe_inline`.
The moves for `slash`, `lct` and reversible folds (211-216) are off by default, and are left out; so is the case that making a program
raises an exception, which ends the search.
-/
import Verif.Measure
import Verif.Hook
import Verif.Search

set_option linter.unusedSectionVars false
set_option linter.unusedSimpArgs false

namespace Verif
open Tm Heap
open Solver (noHeap)

namespace SearchMoves
open Measure (Rec Folded addRef defineM unfoldM foldM anyO)
open Unfold (Prog Ops)
open Fold (safeByRev)
open Hook (genName syms absorb revRule)
variable {W : Type}

/-- a program of the lineage; `defIx` are the numbers of the rules to fold by (259-262): those of a `Define` that are new, all rules of the
original program, `none` for other programs -/
structure Stage (W : Type) where
  R : Rec W
  defIx : Option (List Nat)
  base : List (WRule W)
  c : Nat

/-- the moves; `f` is fuel, `k` the allocation mark of variables -/
inductive Move (W : Type)
  /-- `program.unfold(i, j, defs=first_appears)` (296) -/
  | unfold (f k i j : Nat)
  /-- `loop_absorption(i, js)`, `define` and `basic_fold` (335-337); `c` is the number of the new name -/
  | hook (f k i : Nat) (js : List Nat) (c : Nat)
  /-- `p.unfold(i, j, defs=defs)` by the program number `d` of the lineage, of which the subgoal is an item (`/repo/dyna/programs.py` 107-109) -/
  | unfoldBy (f k d i j : Nat)
  /-- `Fold(program, r, S, defs, j)` (273) by the program number `d` of the lineage -/
  | fold (f k d : Nat) (r : WRule W) (S : Finset Nat) (j : Nat)

/-- what stays the same during a search -/
structure Env (W S' : Type) where
  o : RuleOps (WRule W) S'
  ord : List Nat → List Nat
  ops : Ops
  code : W → Const
  pick : List (Folded W) → Option (Folded W)
  vord : Finset Nat → List Nat
  sym : Bool
  inf : W

/-- `p.is_item(x)` (program.py:532-533) -/
def isItem (f : Nat) (p : Prog W) (x : Tm) : Option Bool := anyO (fun r => unifiesF f r.head x noHeap) p.rules

/-- the first of the programs (290-294) -/
def firstAppears (f : Nat) (x : Tm) (P : Stage W) : List (Stage W) → Option (Stage W)
  | [] => some P
  | s :: l => match isItem f s.R.prog x with
    | none => none
    | some true => some s
    | some false => firstAppears f x P l

section
variable [One W] [DecidableEq W] {S' : Type} [DecidableEq S']

/-- the lineage of the new program, nearest first; `none`: an exception (or no fuel) -/
def step (e : Env W S') (a : Nat → Int) (L : List (Stage W)) (m : Move W) : Option (List (Stage W)) :=
  match L with
  | [] => none
  | P :: _ =>
    match m with
    | .unfold f k i j =>
      match P.R.prog.rules[i]? with
      | none => none
      | some r => match r.body[j]? with
        | some (.sub q) => match firstAppears f q P L.reverse with
          | none => none
          | some D => match unfoldM f e.ops e.inf k L.length P.R D.R i j with
            | none => none
            | some R => some (⟨R, none, P.base, P.c⟩ :: L)
        | _ => none
    | .hook f k i js c =>
      match P.R.prog.rules[i]? with
      | none => none
      | some r =>
        if (js.any fun j => decide (r.body.length ≤ j)) || decide (c ≤ P.c) || decide (genName c ∈ syms P.R.prog) then none else
        let tmp := absorb e.vord r js (genName c)
        let rev := revRule r tmp js
        match defineM e.sym a P.base.length L.length P.R [tmp] with
        | none => none
        | some D =>
          if safeByRev f e.o e.ops e.inf k D.prog rev {i} 0 ≠ some true then none else
          match foldM f e.o e.ord e.ops e.inf e.code e.pick k (L.length + 1) D D rev {i} 0 with
          | none => none
          | some R => some (⟨R, none, P.base ++ [tmp], c⟩ :: ⟨D, some [P.R.prog.rules.length], P.base ++ [tmp], c⟩ :: L)
    | .unfoldBy f k d i j =>
      match P.R.prog.rules[i]? with
      | none => none
      | some r => match r.body[j]? with
        | some (.sub q) => match L[d]? with
          | none => none
          | some D =>
            if isItem f D.R.prog q ≠ some true then none else
            match unfoldM f e.ops e.inf k L.length P.R D.R i j with
            | none => none
            | some R => some (⟨R, none, P.base, P.c⟩ :: L)
        | _ => none
    | .fold f k d r S j =>
      match L[d]? with
      | none => none
      | some D =>
        if D.defIx.isNone then none else
        match foldM f e.o e.ord e.ops e.inf e.code e.pick k L.length P.R D.R r S j with
        | none => none
        | some R => some (⟨R, none, P.base, P.c⟩ :: L)

/-- the original program; `c` is the number of names generated before -/
def first (e : Env W S') (a : Nat → Int) (root : Prog W) (c : Nat) : Stage W :=
  ⟨addRef e.sym a 0 root, some (List.range root.rules.length), root.rules, c⟩

/-- the lineage of a program -/
def run (e : Env W S') (a : Nat → Int) (root : Prog W) (c : Nat) : List (Move W) → Option (List (Stage W))
  | [] => some [first e a root c]
  | m :: ms => match run e a root c ms with
    | none => none
    | some L => step e a L m

/-- the rules of a program; they do not depend on `a` (`C85_rules`) -/
def rulesOf (e : Env W S') (root : Prog W) (c : Nat) (ms : List (Move W)) : List (WRule W) :=
  match run e (fun _ => 0) root c ms with
  | some (P :: _) => P.R.prog.rules
  | _ => []

/-- a `State` (32-37) without `lct` -/
structure State (W : Type) where
  ms : List (Move W)
  eureka : List (WRule W)
  unfold : List (WRule W)

/-- the enumerations, the mark and the fuel for the next program, and the number of the next name -/
structure Cands (W : Type) where
  req : WRule W → WRule W → Bool
  elims : WRule W → List (List Nat)
  props : Prog W → List (WRule W) → List (WRule W × Nat)
  parts : Prog W → Prog W → WRule W × Nat → Option (Finset Nat)
  inline : Prog W → Tm → Bool
  fuel : List (Move W) → Nat
  mark : List (Move W) → Nat
  next : List (Move W) → Nat

/-- is the rule in the set -/
def mem (g : Cands W) (r : WRule W) (l : List (WRule W)) : Bool := l.any (g.req r)

/-- `_drive_folds` (244-274) -/
def driveFolds (g : Cands W) (s : State W) (P : Stage W) (L : List (Stage W)) : List (State W) :=
  L.zipIdx.flatMap fun Dd => match Dd.1.defIx with
    | none => []                                                                        -- 265
    | some ix => (g.props P.R.prog (ix.filterMap fun i => Dd.1.R.prog.rules[i]?)).flatMap fun rj =>
      match g.parts P.R.prog Dd.1.R.prog rj with
      | none => []
      | some S => [⟨.fold (g.fuel s.ms) (g.mark s.ms) Dd.2 rj.1 S rj.2 :: s.ms, s.eureka, s.unfold⟩]

/-- the first rule that is not in the set, with its number -/
def todo (g : Cands W) (done : List (WRule W)) (rs : List (WRule W)) : Option (WRule W × Nat) := rs.zipIdx.find? fun ri => !mem g ri.1 done

/-- `_drive_eureka` (301-340) -/
def driveEureka (g : Cands W) (s : State W) (P : Stage W) : List (State W) :=
  match todo g s.eureka P.R.prog.rules with
  | none => []
  | some (r, i) => ⟨s.ms, r :: s.eureka, s.unfold⟩ :: (g.elims r).map fun js =>
    ⟨.hook (g.fuel s.ms) (g.mark s.ms) i js (g.next s.ms) :: s.ms, r :: s.eureka, s.unfold⟩

/-- `_drive_unfold` (276-299) -/
def driveUnfold (g : Cands W) (s : State W) (P : Stage W) : List (State W) :=
  match todo g s.unfold P.R.prog.rules with
  | none => []
  | some (r, i) => ⟨s.ms, s.eureka, r :: s.unfold⟩ :: r.body.zipIdx.flatMap fun xj => match xj.1 with
    | .val _ => []
    | .sub x => if g.inline P.R.prog x then [⟨.unfold (g.fuel s.ms) (g.mark s.ms) i xj.2 :: s.ms, s.eureka, r :: s.unfold⟩] else []

/-- `drive` (195-216) -/
def drive (e : Env W S') (root : Prog W) (c : Nat) (g : Cands W) (s : State W) : List (State W) :=
  match run e (fun _ => 0) root c s.ms with
  | some (P :: L) =>
    let noUnfold := P.R.prog.rules.all fun r => mem g r s.unfold
    let noEureka := P.R.prog.rules.all fun r => mem g r s.eureka
    (if noUnfold then driveFolds g s P (P :: L) else []) ++ driveEureka g s P ++ (if noEureka then driveUnfold g s P else [])
  | _ => []

open Classical in
/-- `check_measure(p)` without its cache (171-178): there are values of the unknowns for which all constraints hold; the original program is not checked -/
noncomputable def check (e : Env W S') (root : Prog W) (c : Nat) : List (Move W) → Bool
  | [] => true
  | m :: ms => decide (∃ a P L, run e a root c (m :: ms) = some (P :: L) ∧ P.R.ok = true)

end
end SearchMoves
end Verif
