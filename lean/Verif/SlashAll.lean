/-
`ProgramCollection.slashes`, `lct`, `_slashes` and `__slashes` (`/repo/dyna/programs.py` 186-208).

As in Slash.lean, positions that select a constant or a builtin are not modelled: the programs here have only items in their bodies.  The variable `X` that is slashed out
is `syntax.term('X')` for `slashes` (slash.py:19) and the default for `lct` (lct.py:13, 17).  The mark of new variables may be another one for each program that is made.
The list is made as a whole: `none` is that one of the transformations raises (or fuel), which ends the comprehension (193).
-/
import Verif.Slash

set_option linter.unusedSectionVars false
set_option linter.unusedSimpArgs false

namespace Verif
open Tm Heap

namespace SlashAll
open Linearize (Sigs)
open Slash (Res slash)
open Unfold (Prog)
variable {W : Type}

/-- `product(*positions)` (201-204) -/
def positions : List (WRule W) → List (List (Option Nat))
  | [] => [[]]
  | r :: rs => (none :: (List.range r.body.length).map some).flatMap fun j => (positions rs).map (j :: ·)

/-- `dict(enumerate(pos))` as it is looked up by `get` -/
def posOf (v : List (Option Nat)) : Nat → Option Nat := fun i => v[i]?.join

/-- the transformations of one program (195-208); `lct` is `not speculation` -/
def slashesOf (lct : Bool) (f : Nat) (sig : Sigs) (fv cv : Nat → Nat) (lam : Const) (ks : List (Option Nat) → Nat) (p : Prog W) : Option (List (Res W)) :=
  allSome ((positions p.rules).map fun v => slash lct f sig fv cv lam p.rules p.inputs (posOf v) (.var 0) (ks v))

/-- `slashes` and `lct` (186-193); the programs of the collection themselves are not in the result -/
def slashes (lct : Bool) (f : Nat) (sig : Sigs) (fv cv : Nat → Nat) (lam : Const) (ks : Prog W → List (Option Nat) → Nat) (C : List (Prog W)) : Option (List (Res W)) :=
  (allSome (C.map fun p => slashesOf lct f sig fv cv lam (ks p) p)).map List.flatten

end SlashAll
end Verif
