/-
`Rule.lift` (`/repo/dyna/rule.py` 41-45), `Program.lift_semiring` (`/repo/dyna/program.py` 351-355) and `Program._coerce_semirings` (554-565).

`semiring.lift(x, head)` is a parameter.  The name of the transformed program and its parent are left out, as are the parsing of text (560) and inputs and outputs
(which `TransformedProgram` copies).
-/
import Verif.ProgUpdate

set_option linter.unusedSectionVars false
set_option linter.unusedSimpArgs false

namespace Verif
open Tm

namespace LiftSemi
variable {K W S C : Type}

/-- `Rule.lift(semiring)` (rule.py:41-45) for a semiring -/
def liftRule (φ : K → Tm → W) (r : WRule K) : WRule W :=
  ⟨r.head, r.body.map fun z => match z with
    | .val k => .val (φ k r.head)
    | .sub t => .sub t⟩

/-- the rules of `lift_semiring(semiring)` (program.py:351-355) for a semiring -/
def liftProg (φ : K → Tm → W) (p : List (WRule K)) : List (WRule W) := p.map (liftRule φ)

/-- a program with its `semiring`, which may be `None`; constants are any Python values -/
structure SProg (S C : Type) where
  semiring : Option S
  rules : List (WRule C)

/-- `lift_semiring(s)` (351-355); `Rule.lift(None)` returns the rule (rule.py:43) -/
def SProg.lift (φ : S → C → Tm → C) (s : Option S) (p : SProg S C) : SProg S C :=
  ⟨s, match s with
    | none => p.rules
    | some s => liftProg (φ s) p.rules⟩

/-- `_coerce_semirings(self, other)` (554-565) -/
def coerce (φ : S → C → Tm → C) (p q : SProg S C) : SProg S C × SProg S C :=
  let q' := if p.semiring.isSome && q.semiring.isNone then q.lift φ p.semiring else q             -- 561-562
  let p' := if q'.semiring.isSome && p.semiring.isNone then p.lift φ q'.semiring else p           -- 563-564
  (p', q')

end LiftSemi
end Verif
