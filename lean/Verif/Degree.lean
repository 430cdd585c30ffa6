/-
Degrees and variable elimination: `RuleAnalyzer_` (`/repo/dyna/rule.py` 226-257), `Program.degree` and
`Program.degrees` (`/repo/dyna/program.py` 326-337), `CostDegrees` (program.py:30-32), the proposals of
`_drive_eureka` (`/repo/dyna/search/search.py` 301-340) and of `ProgramCollection.eurekas`
(`/repo/dyna/programs.py` 39-48).

The iteration order of a set of variables is the parameter `ord`, that of a set of proposals the parameter `shuf`.
A state of the search is its program and its set `eureka`, here a list (most recent first); the other two fields of `State`
are not touched by `_drive_eureka`.  `hook` (which `_drive_eureka` repeats line by line, 335-337) is in `Verif.Hook`.
-/
import Verif.Hook
import Mathlib.Data.List.Sort

set_option linter.unusedSectionVars false
set_option linter.unusedSimpArgs false

namespace Verif
open Tm Heap

namespace Degree
open Unfold (Prog)
open Hook (Env hook)
open Sem (litVars rvars)
variable {W : Type}

/-- the dict `v2f` and the set `fs_with_vars` -/
abbrev Scan := (Nat → List Nat) × List Nat

/-- the body of the inner loop for factor `i` (rule.py:235-237); adding to an `OrderedSet` twice changes nothing -/
def note (i : Nat) (s : Scan) (v : Nat) : Scan :=
  (Function.update s.1 v (s.1 v ++ [i]), if i ∈ s.2 then s.2 else s.2 ++ [i])

/-- the loop over the factors (rule.py:234-237), from number `i` on -/
def scan (ord : Finset Nat → List Nat) : Nat → List (Lit W) → Scan → Scan
  | _, [], s => s
  | i, x :: xs, s => scan ord (i + 1) xs ((ord (litVars x)).foldl (note i) s)

/-- what the analyzer of a rule keeps -/
structure Analyzer where
  v2f : Nat → List Nat
  localVars : Finset Nat
  canElim : List Nat
  degree : Nat

/-- `RuleAnalyzer_(r)` (rule.py:227-257) -/
def analyzer (ord : Finset Nat → List Nat) (r : WRule W) : Analyzer :=
  let s := scan ord 0 r.body (fun _ => [], [])
  let loc := rvars r \ vars r.head
  ⟨s.1, loc, (ord loc).filter fun v => decide ((s.1 v).toFinset ⊂ s.2.toFinset), (rvars r).card⟩

/-- `p.degree` (program.py:326-328) -/
def degree (ord : Finset Nat → List Nat) (p : Prog W) : Nat := (p.rules.map fun r => (analyzer ord r).degree).foldr max 0

/-- `tuple(reversed(sorted(l)))` -/
def descending (l : List Nat) : List Nat := (l.insertionSort (· ≤ ·)).reverse

/-- `p.degrees()` (program.py:330-337) -/
def degrees (ord : Finset Nat → List Nat) (p : Prog W) : List Nat := descending (p.rules.map fun r => (analyzer ord r).degree)

/-- `CostDegrees.__mul__` (program.py:31-32) -/
def mul (a b : List Nat) : List Nat := descending (a ++ b)

/-- `a < b` for tuples of numbers -/
def tupLt : List Nat → List Nat → Bool
  | _, [] => false
  | [], _ :: _ => true
  | a :: as, b :: bs => if a = b then tupLt as bs else decide (a < b)

/-- `{tuple(sorted(a.v2f[v])) for v in a.can_elim}` (search.py:333, programs.py:45), in the order in which it is iterated -/
def proposals (shuf : List (List Nat) → List (List Nat)) (ord : Finset Nat → List Nat) (r : WRule W) : List (List Nat) :=
  let a := analyzer ord r
  shuf ((a.canElim.map fun v => (a.v2f v).insertionSort (· ≤ ·)).dedup)

section
variable [One W] [DecidableEq W] {S' : Type} [DecidableEq S']

/-- `for js in Fs: … p.hook(i, js)` (search.py:334-337, programs.py:46-47) -/
def hooks (f : Nat) (e : Env W S') (p : Prog W) (i : Nat) : List (List Nat) → Nat → Option (List (Prog W) × Nat)
  | [], c => some ([], c)
  | js :: Fs, c =>
    match hook f e p c i js with
    | none => none
    | some (q, c) =>
      match hooks f e p i Fs c with
      | none => none
      | some (qs, c) => some (q :: qs, c)

/-- the loop over the rules of `p` (programs.py:43-47), from number `i` on -/
def eurekasOf (f : Nat) (e : Env W S') (shuf : List (List Nat) → List (List Nat)) (p : Prog W) :
    Nat → List (WRule W) → Nat → Option (List (Prog W) × Nat)
  | _, [], c => some ([], c)
  | i, r :: rs, c =>
    match hooks f e p i (proposals shuf e.ord r) c with
    | none => none
    | some (qs, c) =>
      match eurekasOf f e shuf p (i + 1) rs c with
      | none => none
      | some (qs', c) => some (qs ++ qs', c)

/-- the loop over the collection (programs.py:42-47) -/
def eurekasLoop (f : Nat) (e : Env W S') (shuf : List (List Nat) → List (List Nat)) :
    List (Prog W) → Nat → Option (List (Prog W) × Nat)
  | [], c => some ([], c)
  | p :: ps, c =>
    match eurekasOf f e shuf p 0 p.rules c with
    | none => none
    | some (qs, c) =>
      match eurekasLoop f e shuf ps c with
      | none => none
      | some (qs', c) => some (qs ++ qs', c)

/-- `ps.eurekas()` (programs.py:39-48) -/
def eurekas (f : Nat) (e : Env W S') (shuf : List (List Nat) → List (List Nat)) (ps : List (Prog W)) (c : Nat) :
    Option (List (Prog W) × Nat) := (eurekasLoop f e shuf ps c).map fun a => (ps ++ a.1, a.2)

/-- the part of a state of the search that `_drive_eureka` looks at -/
structure ESt (W : Type) where
  program : Prog W
  eureka : List (WRule W)

/-- `_drive_eureka(state)` (search.py:322-340), from rule number `i` on: the states given to `_update`, in order, and
the counter of generated names.  Rules in sets are compared by `==` (term.py:366-368), that is, literally. -/
def drive (f : Nat) (e : Env W S') (shuf : List (List Nat) → List (List Nat)) (s : ESt W) :
    Nat → List (WRule W) → Nat → Option (List (ESt W) × Nat)
  | _, [], c => some ([], c)
  | i, r :: rs, c =>
    if r ∈ s.eureka then drive f e shuf s (i + 1) rs c
    else
      match hooks f e s.program i (proposals shuf e.ord r) c with
      | none => none
      | some (qs, c) => some (⟨s.program, r :: s.eureka⟩ :: qs.map fun q => ⟨q, r :: s.eureka⟩, c)

end
end Degree
end Verif
