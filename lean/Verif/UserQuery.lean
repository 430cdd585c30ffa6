/-
`BaseSolver.user_query` (`/repo/dyna/execute/base.py` 32-46) of the forward-chaining solver (`/repo/dyna/execute/solver.py`).

The run of the solver that comes before (42) is that of Solver.lean; here is what is done with the chart that it leaves.  Parsing of the query (37) is left out.
Items of the chart are ground, so that `fresh` (43) leaves the facts as they are.  `constant_folding` is that of CFold.lean, with the rules that it drops given by `dead`;
`sort` (45) is a function that permutes its argument (hypothesis of the theorems).
-/
import Verif.Solver
import Verif.CFold

set_option linter.unusedSectionVars false
set_option linter.unusedSimpArgs false

namespace Verif
open Tm Heap

namespace UserQuery
open Solver (joinF noHeap)
variable {K : Type}

/-- the list of facts (43); `lookup_vals(q)` is `join([q], one)` with the factors kept apart, see Solver.lean -/
def facts [One K] (f : Nat) (chart : Dict Tm K) (cand : Tm → List Tm) (q : Tm) : Option (List (WRule K) × Sig) :=
  match joinF f chart cand [.sub q] [] (fun P h s => match derefF h f q with
      | none => none
      | some t => some (h, s ++ [⟨t, P.map .val⟩], .done)) noHeap [] with
  | some (_, rs, sig) => some (rs, sig)
  | none => none

/-- `user_query(q)` (32-46), `none` if an exception is raised or fuel runs out -/
def userQuery [CommSemiring K] [DecidableEq K] (cv : Nat → Nat) (ord : List Tm → List Tm) (srt : List (WRule K) → List (WRule K)) (dead : K → Bool)
    (f : Nat) (chart : Dict Tm K) (cand : Tm → List Tm) (q : Tm) : Option (List (WRule K)) :=
  match facts f chart cand q with
  | some (rs, .done) => some (srt (CFold.folded cv ord dead rs))
  | _ => none

end UserQuery
end Verif
