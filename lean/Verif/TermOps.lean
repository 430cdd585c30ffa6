/-
Operations of `/repo/dyna/term.py` that inspect or copy terms: `Subst.cover` (521-541), `covers`
(556-561), `same` (832-836), `canonicalize` (745-788), `Fresh`/`fresh` (566-599), `intersect` (839-844).
-/
import Verif.Subst

namespace Verif
open Tm

namespace Subst

mutual
/-- `s.cover(x, y)` (term.py:521-541) on dereferenced terms (line 523 and the `==` tests resolve
bindings first).  Inner `none` is `FAIL`; fuel is used only by the occurs check, whose recursion goes
through the dict. -/
def coverF (f : Nat) (s : Heap) : Tm → Tm → Option (Option Heap)
  | .var n, y =>
    if Tm.var n = y then some (some s) else                            -- 525-526
    match s n with
    | some t => if t = y then some (some s) else some none             -- 529-531
    | none => match Heap.occursF s f n y with                          -- 532-534
      | none => none
      | some true => some none
      | some false => some (some (s.upd n (some y)))
  | .con c, y => if Tm.con c = y then some (some s) else some none
  | .app as, y =>
    if Tm.app as = y then some (some s) else
    match y with
    | .app bs => if as.length = bs.length then coverLF f s as bs else some none   -- 536-541
    | _ => some none
def coverLF (f : Nat) (s : Heap) : List Tm → List Tm → Option (Option Heap)
  | a :: as, b :: bs => match coverF f s a b with
    | none => none
    | some none => some none
    | some (some s') => coverLF f s' as bs
  | _, _ => some (some s)
end

/-- `covers(x, y)` (term.py:556-561) -/
def coversF (f : Nat) (x y : Tm) : Option Bool := (coverF f (fun _ => none) x y).map (·.isSome)

/-- `same(x, y)` (term.py:832-836); Python's `and` does not evaluate the second call after a failure. -/
def sameF (f : Nat) (x y : Tm) : Option Bool := match coversF f x y with
  | none => none
  | some false => some false
  | some true => coversF f y x

end Subst

/-! ### Renaming traversals -/

/-- number of the first position of `n` in `vs` -/
def idx (vs : List Nat) (n : Nat) : Nat := vs.idxOf n

mutual
/-- The memoizing traversal shared by `_canonicalize` (term.py:750-780; `gen i` is the `i`-th interned
variable) and `Fresh.__call__` (566-599; `gen i` is the `i`-th newly allocated `Var`): `vs` lists the
variables met so far in order, variable number `i` of the list being mapped to `gen i`.
This is the traversal on terms without bound variables; see `renF`. -/
def ren (gen : Nat → Nat) : Tm → List Nat → Tm × List Nat
  | .var n, vs =>
    if n ∈ vs then (.var (gen (idx vs n)), vs) else (.var (gen vs.length), vs ++ [n])
  | .con c, vs => (.con c, vs)
  | .app as, vs => let r := renL gen as vs; (.app r.1, r.2)
def renL (gen : Nat → Nat) : List Tm → List Nat → List Tm × List Nat
  | [], vs => ([], vs)
  | a :: as, vs =>
    let r := ren gen a vs
    let rs := renL gen as r.2
    (r.1 :: rs.1, rs.2)
end

mutual
/-- The same traversal following bindings in the store (`snap` at 752, `is_bound` at 583-584). -/
def renF (h : Heap) (gen : Nat → Nat) : Nat → Tm → List Nat → Option (Tm × List Nat)
  | 0, _, _ => none
  | f + 1, x, vs => match x with
    | .var n => match h n with
      | some t => renF h gen f t vs
      | none => if n ∈ vs then some (.var (gen (idx vs n)), vs)
                else some (.var (gen vs.length), vs ++ [n])
    | .con c => some (.con c, vs)
    | .app as => match renLF h gen f as vs with
      | none => none
      | some (as', vs') => some (.app as', vs')
def renLF (h : Heap) (gen : Nat → Nat) : Nat → List Tm → List Nat → Option (List Tm × List Nat)
  | 0, _, _ => none
  | _ + 1, [], vs => some ([], vs)
  | f + 1, a :: as, vs => match renF h gen f a vs with
    | none => none
    | some (a', vs') => match renLF h gen f as vs' with
      | none => none
      | some (as', vs'') => some (a' :: as', vs'')
end

/-- `canonicalize(x)` (term.py:745-747).  `cv i` is the interned variable `_cvars[i]` (783-788). -/
def canonF (cv : Nat → Nat) (h : Heap) (f : Nat) (x : Tm) : Option Tm := (renF h cv f x []).map (·.1)

/-- `fresh(x)` (term.py:597-599) when variables numbered from `k` on have not been allocated yet;
also returns the new allocation mark.  Variable names are not modelled. -/
def freshF (k : Nat) (h : Heap) (f : Nat) (x : Tm) : Option (Tm × Nat) :=
  (renF h (k + ·) f x []).map fun r => (r.1, k + r.2.length)

/-- `fresh` on terms without bound variables -/
def freshP (k : Nat) (x : Tm) : Tm × Nat := let r := ren (k + ·) x []; (r.1, k + r.2.length)

/-- `canonicalize` on terms without bound variables -/
def canonP (cv : Nat → Nat) (x : Tm) : Tm := (ren cv x []).1

/-- `intersect(x, y)` (term.py:839-844): the loop body assigns `z = fresh(x)`. -/
def intersectF (k : Nat) (f : Nat) (x y : Tm) (h : Heap) : Option (Option Tm) :=
  (Heap.unifyF (S := Option Tm) f x y (fun h' _ => match freshF k h' f x with
    | none => none
    | some (z, _) => some (h', some z, .done)) h none).map (·.2.1)

end Verif
