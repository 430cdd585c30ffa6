/-
The choice of a solver: `is_range_restricted` (program.py:857-859) and `_solver_for` (861-880) of
`/repo/dyna/program.py`.

Simplifications: rules are those of `Verif.Solver` (values, subgoals, `X = Y`, comparisons), and no
variable is bound, so `term_vars` is the set of variables of a term.  A caller's own constructor (line
880) is not modelled.
-/
import Verif.Solver

set_option linter.unusedSectionVars false
set_option linter.unusedSimpArgs false

namespace Verif
open Tm Heap

namespace SolverFor
variable {K : Type}

/-- `term_vars(r.body)`: the variables of all body elements, builtins included (program.py:859) -/
def bodyVars (r : SRule K) : Finset Nat := vars (.app (r.body.flatMap Solver.litTerms))

/-- `is_range_restricted()` (program.py:857-859) -/
def isRangeRestricted (rules : List (SRule K)) : Bool := rules.all fun r => vars r.head \ bodyVars r = ∅

/-- the two constructors `Program.solver` and `Program.solver2` -/
inductive Which
  | solver1
  | solver2
deriving DecidableEq

/-- `_solver_for(solver)` (program.py:861-880); `none` is `solver=None` -/
def solverFor (rules : List (SRule K)) : Option Which → Which
  | none => if isRangeRestricted rules then .solver1 else .solver2
  | some w => w

end SolverFor
end Verif
