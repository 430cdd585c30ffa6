/-
Explicit substitutions: class `Subst(dict)` of `/repo/dyna/term.py` 432-547 and `covers` 556-561.

A `Subst` is a finite map from variables to terms; only look-up and insertion of a missing key are
used, so it is modelled by its look-up function.  The terms handed to `mgu` have no bound variables
(`Var.value`), hence `==` on them is structural equality.
`Subst.__call__` (446-457) is literally the recursion of `deref` with dict look-up in place of
`.value`, so `derefF` applied to the look-up function models it.
-/
import Verif.Heap

namespace Verif
open Tm

namespace Subst

/-- `s(x)` (term.py:448-460) -/
abbrev callF (s : Heap) (f : Nat) (x : Tm) : Option Tm := Heap.derefF s f x

mutual
/-- `s.mgu(x, y)` (term.py:496-519).  Inner `none` is `FAIL`. -/
def mguF : Nat → Heap → Tm → Tm → Option (Option Heap)
  | 0, _, _, _ => none
  | f + 1, s, x, y =>
    if x = y then some (some s) else                                  -- 498
    match x with
    | .var n => match s n with
      | some t => mguF f s t y                                        -- 500-501
      | none => match y with
        | .var m => match s m with
          | some t => mguF f s (.var n) t                             -- 502-503
          | none => mbindF f s n (.var m)
        | y => mbindF f s n y
    | x => match y with
      | .var m => mguF f s (.var m) x                                 -- 509-510
      | y => match x, y with
        | .app as, .app bs =>                                         -- 511-518
          if as.length = bs.length then mguLF f s as bs else some none
        | _, _ => some none
/-- lines 504-508; `occur_check` (483-494) is the recursion of `Var.occurs_check` over the dict -/
def mbindF : Nat → Heap → Nat → Tm → Option (Option Heap)
  | 0, _, _, _ => none
  | f + 1, s, n, y => match Heap.occursF s f n y with
    | none => none
    | some true => some none
    | some false => some (some (s.upd n (some y)))
/-- the loop 514-518 -/
def mguLF : Nat → Heap → List Tm → List Tm → Option (Option Heap)
  | 0, _, _, _ => none
  | f + 1, s, a :: as, b :: bs => match mguF f s a b with
    | none => none
    | some none => some none
    | some (some s') => mguLF f s' as bs
  | _ + 1, s, _, _ => some (some s)
end

end Subst
end Verif
