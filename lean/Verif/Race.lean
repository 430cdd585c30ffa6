/-
`ProgramCollection.race` (`/repo/dyna/programs.py` 210-230).

What `run` does with a program is given by its result and by how long it takes in each round: `none` if it does not end.  `timelimit` (of the package `arsenal`) is taken to
stop a run exactly if it takes longer than the budget.  Times are rational numbers, the initial `inf` of `best_t` is `none`.  An exception raised by `run`, which
leaves the loop, and the progress bar of `iterview` are left out.  `while` is bounded by a number of rounds.
-/
import Mathlib.Data.Rat.Defs
import Mathlib.Algebra.Order.Ring.Rat

set_option linter.unusedSectionVars false
set_option linter.unusedSimpArgs false

namespace Verif
namespace Race
variable {X Y : Type}

/-- the results of `run`, and the duration of the run of a program in a round -/
structure World (X Y : Type) where
  out : X → Y
  dur : Nat → X → Option ℚ

/-- `best_t`, `best_x`, `best_y` -/
abbrev Best (X Y : Type) := Option (ℚ × X × Y)

/-- one run (217-228) -/
def one (w : World X Y) (k : Nat) (budget : ℚ) (best : Best X Y) (x : X) : Best X Y :=
  match w.dur k x with
  | none => best
  | some t =>
    if budget < t then best                                                             -- 222-223
    else match best with
      | none => some (t, x, w.out x)
      | some b => if t < b.1 then some (t, x, w.out x) else best                        -- 225-228

/-- one round (216-228) -/
def round (w : World X Y) (C : List X) (k : Nat) (budget : ℚ) : Best X Y := C.foldl (one w k budget) none

/-- the loop (215-229), from round `k` on; `n` bounds the number of rounds.  Also the number of the round in which it ends -/
def loop (w : World X Y) (C : List X) (growth : ℚ) : Nat → Nat → ℚ → Option (Nat × ℚ × X × Y)
  | 0, _, _ => none
  | n + 1, k, budget => match round w C k budget with
    | some b => some (k, b)
    | none => loop w C growth n (k + 1) (budget * growth)                               -- 229

/-- `race(run, tmin, growth_factor)` (210-230) -/
def race (w : World X Y) (C : List X) (tmin growth : ℚ) (n : Nat) : Option (Nat × ℚ × X × Y) := loop w C growth n 0 tmin

/-- how long a round takes: a run that is stopped takes the budget -/
def spent (w : World X Y) (C : List X) (k : Nat) (budget : ℚ) : ℚ :=
  (C.map fun x => match w.dur k x with
    | none => budget
    | some t => if budget < t then budget else t).sum

/-- how long rounds `0` to `k` take -/
def total (w : World X Y) (C : List X) (tmin growth : ℚ) (k : Nat) : ℚ := ((List.range (k + 1)).map fun i => spent w C i (tmin * growth ^ i)).sum

end Race
end Verif
