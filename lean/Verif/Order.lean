/-
The term order `lt` of `/repo/dyna/term.py` 678-720 (used by `Term.__lt__`, `Var.__lt__` and hence by
every `sorted` over terms and rules).

Modelled on dereferenced terms (lines 687-688 and the `==` tests resolve bindings).  `name n` is the
`name` attribute of variable `n`.  Constants are ints and strings (floats, Booleans and other payloads
are not modelled); comparing an int with a string raises `TypeError` and falls back to the type names
`'int' < 'str'` (716-719).
-/
import Verif.Term
import Mathlib.Data.String.Basic

namespace Verif
open Tm

/-- native comparison of constants (term.py:715-719) -/
def Const.lt : Const → Const → Bool
  | .int a, .int b => decide (a < b)
  | .str a, .str b => decide (a < b)
  | .int _, .str _ => true
  | .str _, .int _ => false

mutual
/-- `lt(x, y)` (term.py:678-720).  The call `not (y < x)` of line 712 is unfolded one step: for a
constant `x` and a `Term` `y`, `y < x` is `lt(y.fn, x)`; for a `Var` `y` it is `False`. -/
def tlt (name : Nat → String) : Tm → Tm → Bool
  | x, y =>
    if x = y then false else                                            -- 690-691
    match x, y with
    | .var n, .var m => decide (name n < name m)                        -- 693-695
    | .var _, _ => false
    | .app as, .app bs => tltL name as bs                               -- 699-707
    | .app [], _ => false                                               -- no functor: IndexError in Python
    | .app (a :: _), y => tlt name a y                                  -- 709-710
    | .con _, .var _ => true                                            -- 712-713
    | .con _, .app [] => false                                          -- no functor: IndexError in Python
    | .con c, .app (b :: _) => !tlt name b (.con c)                     -- 712-713
    | .con a, .con b => a.lt b                                          -- 715-719
termination_by x y => size x + size y
decreasing_by
  all_goals simp only [size_app, sizeL_cons, size]; omega
/-- the loop over common slots, then the arity comparison (700-707) -/
def tltL (name : Nat → String) : List Tm → List Tm → Bool
  | a :: as, b :: bs => if a = b then tltL name as bs else tlt name a b
  | [], [] => false
  | [], _ :: _ => true
  | _ :: _, [] => false
termination_by as bs => sizeL as + sizeL bs
decreasing_by
  all_goals simp only [sizeL_cons]; omega
end

end Verif
