/-
The measure of the slash transformation: `Slash.compute_measure` (`/repo/dyna/transform/slash.py` 229-248, the same as that of `LCT`,
`/repo/dyna/transform/lct.py` 182-201), and `derivation_measure` (`/repo/dyna/transform/measure.py` 55-63).

The dictionaries `ss`, `oo`, `o` have one rule for each number, and `rso`, `ro` one for each node or pair of nodes (slash.py:62-112), so that
each rule is in one of them: here a rule has its kind with it.  As in Measure.lean, measures are modelled by their values.
-/
import Verif.DSlash
import Verif.Measure

set_option linter.unusedSectionVars false
set_option linter.unusedSimpArgs false

namespace Verif
open Tm Heap

namespace SlashMeasure
open Slash (Kind Res)
open Measure (Ival Rec)
variable {W : Type}

/-- the measure of a rule (236-246); `m` are those of the parent -/
def ruleM (m : List Ival) : Kind → Option Ival
  | .ss i => m[i]?                                                                      -- 238
  | .oo i => m[i]?                                                                      -- 239
  | .o i => m[i]?                                                                       -- 240
  | .base => some ⟨0, 0⟩                                                                -- 243
  | .rso => some ⟨0, 0⟩                                                                 -- 244
  | .ro => some ⟨0, 0⟩                                                                  -- 245

/-- `Slash.compute_measure` (229-248); `id` is the identity of the new program -/
def slashM (id : Nat) (P : Rec W) (res : Res W) : Option (Rec W) :=
  match allSome (res.rules.map fun R => ruleM P.m R.2) with
  | none => none
  | some m => some ⟨⟨res.rules.map Prod.fst, P.prog.inputs⟩, (id, []) :: P.lineage, m, P.safe⟩

mutual
/-- `derivation_measure(d)` (measure.py:55-63) -/
def dmeas (m : List Ival) : DUnfold.Tree W → Option Ival
  | .const _ => some ⟨0, 0⟩
  | .bi _ => some ⟨0, 0⟩
  | .node i _ ks => match m[i]?, dmeasL m ⟨0, 0⟩ ks with
    | some x, some y => some (x.add y)
    | _, _ => none
/-- `Interval.sum` (measure.py:373-378), from `y` on -/
def dmeasL (m : List Ival) (y : Ival) : List (DUnfold.Tree W) → Option Ival
  | [] => some y
  | d :: ds => match dmeas m d with
    | some x => dmeasL m (y.add x) ds
    | none => none
end

end SlashMeasure
end Verif
