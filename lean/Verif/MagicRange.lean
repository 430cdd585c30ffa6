/-
Range restriction of the program that `magic_templates` makes, and the choice of the solvers of `scc_solver`:
`is_range_restricted` (`/repo/dyna/program.py` 857-859) on the programs of Magic.lean, and lines 973-985 and 1011 of
`scc_solver`.

`linearize` (971), the data, `booleanize` and the passes themselves are left out; they are in SccSolver.lean.  The choice is made
before the data is added (985: `bound_program._solver_for`; 1011: `p._solver_for`).
-/
import Verif.Magic
import Verif.SolverFor

set_option linter.unusedSectionVars false
set_option linter.unusedSimpArgs false

namespace Verif
open Tm

namespace MagicRange
open SolverFor (Which)
variable {W : Type}

/-- `is_range_restricted()` (857-859) -/
def rangeRestricted (rules : List (WRule W)) : Bool := rules.all fun r => vars r.head \ Sem.bodyVars r.body = ∅

/-- `_solver_for(solver)` (861-880) -/
def pick (rules : List (WRule W)) : Option Which → Which
  | none => if rangeRestricted rules then .solver1 else .solver2
  | some w => w

/-- the solvers of pass 1 and pass 2 (973-985, 1011); `bound` is `p.magic_templates()` -/
def passes (magic : Bool) (p bound : List (WRule W)) (solver : Option Which) : Which × Which :=
  (pick (if magic then bound else p) solver, pick p solver)

end MagicRange
end Verif
