/-
The measure with all unknowns 1: `unit_measure` and `safe_by_unit` (`/repo/dyna/program.py` 1760-1771), `make_smt_measure(p, symbolic=False)` (`/repo/dyna/transform/measure.py` 384-387,
`new_var` 81-87), next to `safe_by_smt` (1755-1758).

Programs are given by their moves as in SearchMoves.lean.
-/
import Verif.Collect

set_option linter.unusedSectionVars false
set_option linter.unusedSimpArgs false

namespace Verif
open Tm Heap

namespace UnitMeasure
open Unfold (Prog)
open SearchMoves
variable {W : Type} [One W] [DecidableEq W] {S' : Type} [DecidableEq S']

/-- the environment with a measure that is not symbolic -/
abbrev unit (e : Env W S') : Env W S' := { e with sym := false }

/-- `p.safe_by_unit` (1768-1771); `none` if the measure cannot be computed.  The values given for the unknowns are not looked at -/
def safeByUnit (e : Env W S') (root : Prog W) (c : Nat) (ms : List (Move W)) : Option Bool :=
  match run (unit e) (fun _ => 0) root c ms with
  | some (P :: _) => some P.R.ok
  | _ => none

open Classical in
/-- `p.safe_by_smt` (1755-1758): there are values of the unknowns for which all constraints hold -/
noncomputable def safeBySmt (e : Env W S') (root : Prog W) (c : Nat) (ms : List (Move W)) : Bool :=
  decide (∃ a P L, run { e with sym := true } a root c ms = some (P :: L) ∧ P.R.ok = true)

end UnitMeasure
end Verif
