/-
Small tools on terms: `truncate_term` (`/repo/dyna/analyze/types.py` 52-64), `flatten_op`
(`/repo/dyna/term.py` 90-97) and `join_f` (`/repo/dyna/term.py` 44-56).
-/
import Verif.Heap

set_option linter.unusedSectionVars false
set_option linter.unusedSimpArgs false

namespace Verif
open Tm

/-- a list comprehension `[rec(y) for y in as]` that allocates variables -/
def truncWith (rec : Tm → Nat → Option (Tm × Nat)) : List Tm → Nat → Option (List Tm × Nat)
  | [], k => some ([], k)
  | a :: as, k =>
    match rec a k with
    | none => none
    | some (a', k1) => match truncWith rec as k1 with
      | none => none
      | some (as', k2) => some (a' :: as', k2)

/-- `truncate_term(x, D)` (types.py:52-64); `k` is the number of the next variable object.  A depth `D`
below zero acts as `0`.  The functor is kept as it is (line 62).  `none`: out of fuel in `snap`. -/
def truncF (h : Heap) (f : Nat) : Nat → Tm → Nat → Option (Tm × Nat)
  | 0, x, k =>
    match Heap.snapF h f x with                                          -- 56
    | none => none
    | some _ => some (.var k, k + 1)                                     -- 57-58
  | D + 1, x, k =>
    match Heap.snapF h f x with                                          -- 56
    | none => none
    | some y =>
      match y with
      | .app (g :: as) => match truncWith (truncF h f D) as k with       -- 61-62
        | none => none
        | some (as', k') => some (.app (g :: as'), k')
      | y => some (y, k)                                                 -- 59-60, 63-64

/-- the list comprehension of line 62 -/
def truncLF (h : Heap) (f D : Nat) : List Tm → Nat → Option (List Tm × Nat) := truncWith (truncF h f D)

mutual
/-- `flatten_op(x, op)` (term.py:90-97) -/
def flattenF (h : Heap) (op : String) : Nat → Tm → Option (List Tm)
  | 0, _ => none
  | f + 1, x =>
    match Heap.snapF h f x with                                          -- 92
    | none => none
    | some y => match y with
      | .app (g :: as) =>
        match Heap.eqF h f g (.con (.str op)) with                       -- `x.fn == op`, 93
        | none => none
        | some true => flattenLF h op f as                               -- 94-95
        | some false => some [.app (g :: as)]
      | y => some [y]                                                    -- 97
termination_by f _ => (f, 0)
/-- the loop 94-95 -/
def flattenLF (h : Heap) (op : String) : Nat → List Tm → Option (List Tm)
  | _, [] => some []
  | f, a :: as =>
    match flattenF h op f a with
    | none => none
    | some l => match flattenLF h op f as with
      | none => none
      | some l' => some (l ++ l')
termination_by f as => (f, as.length + 1)
end

/-- `join_f(f, *xs)` (term.py:44-56) for a generator `f` without side effects: `f x` is the list of
products it yields; `*` of products is concatenation (`Product.__mul__`, 186-188). -/
def joinList {α β : Type} (f : α → List (List β)) : List α → List (List β)
  | [] => [[]]                                                           -- 51-52
  | x :: xs => (f x).flatMap fun d1 => (joinList f xs).map fun d2 => d1 ++ d2   -- 54-56

end Verif
