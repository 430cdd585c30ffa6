/-
Joining simple types: `anti_unifier` and `disjoin` of `/repo/dyna/analyze/rewrites.py`.

Constraint propagation (`self.cp`), `self.covers` and `self(·, ALLOW_FREE_MERGE=False)` are parameters (Propagate.lean
and Rewrites.lean are their models); they are also given the allocation mark, so that equal calls may have different
results.  The iteration order of Python's sets is a parameter, too.
`none` stands for an exception or a call that does not return.
Simplified: no bound variables; a set of types is a list without repetitions; `generalizer` and `mgu` are the models of
TermSets.lean and Subst.lean; the variables allocated by `intersect` are allocated again later (they do not survive the
call).
-/
import Verif.TypeAn
import Verif.TermSets

set_option linter.unusedSectionVars false
set_option linter.unusedSimpArgs false

namespace Verif
namespace AntiUnify
open Tm Heap
open Propagate (eqT fnIs)
open Rewrites (Ty Res isApp)
open TypeAn (freshT)

/-- The operations of `Rewrites`. -/
structure Par where
  cp : Nat → List Tm → Option (Option (List Tm))
  cov : Nat → Ty → Ty → Option Bool
  simp : Nat → Ty → Res

/-- `scons(subst)` (propagate.py:14-15), for a substitution on variables below `N` -/
def scons (N : Nat) (s : Heap) : List Tm := (List.range N).filterMap fun n => (s n).map (eqT (.var n))

/-- a number above all variables of two terms -/
def above (x y : Tm) : Nat := (vars x ∪ vars y).sup (· + 1)

/-- `{*body, *scons(Subst().mgu(head, new_head))}` and its propagation (rewrites.py:218-219) -/
def onto (P : Par) (f k : Nat) (r : Ty) (h : Tm) : Option (Option (List Tm)) :=
  match Subst.mguF f (fun _ => none) r.1 h with
  | some (some σ) => P.cp k (r.2 ++ scons (above r.1 h) σ)
  | _ => none                                                   -- `scons(None)` raises an exception

/-- The candidates (rewrites.py:235-241): `h` is the generalized head. -/
def cand (h : Tm) (x : Tm) : Bool :=
  isApp x && !fnIs "=" x && !fnIs "$bound" x && !fnIs "$free" x && decide ((vars x).Nonempty) && decide (vars x ⊆ vars h)

/-- The candidates entailed by both types (rewrites.py:243-246). -/
def keep (P : Par) (k : Nat) (h : Tm) (r s : Ty) : List Tm → Option (List Tm)
  | [] => some []
  | A :: As => match P.cov k (h, [A]) r with
    | none => none
    | some false => keep P k h r s As
    | some true => match P.cov k (h, [A]) s with
      | none => none
      | some false => keep P k h r s As
      | some true => (keep P k h r s As).map (A :: ·)

/-- `anti_unifier(r, s)` (rewrites.py:208-261), with allocation mark `k` -/
def antiUnifier (P : Par) (f k : Nat) (r s : Ty) : Option (Ty × Nat) :=
  let r' := freshT k r
  let s' := freshT r'.2 s
  let h := generalizer id s'.2 r'.1.1 s'.1.1
  match onto P f h.2 r'.1 h.1, onto P f h.2 s'.1 h.1 with
  | none, _ | _, none => none
  | some none, some _ => some (s'.1, h.2)                                    -- 223
  | some (some _), some none => some (r'.1, h.2)                             -- 224
  | some (some R), some (some S) =>
    match keep P h.2 h.1 r'.1 s'.1 ((R ++ S).dedup.filter (cand h.1)) with
    | none => none
    | some body => some ((h.1, body), h.2)

/-- whether `intersect(r, s)` is not `None` (rewrites.py:125-132) -/
def meets (P : Par) (f k : Nat) (r s : Ty) : Option Bool :=
  let s' := freshT k s
  match Subst.mguF f (fun _ => none) r.1 s'.1.1 with
  | none => none
  | some none => some false
  | some (some σ) => match P.simp s'.2 (r.1, r.2 ++ s'.1.2 ++ scons (above r.1 s'.1.1) σ) with
    | .oof | .err => none
    | .none => some false
    | .ty _ _ => some true

/-- the first `s` of a list that meets `r`: the inner loop of `combinations` -/
def meetsAny (P : Par) (f k : Nat) (r : Ty) : List Ty → Option (Option Ty)
  | [] => some none
  | s :: ss => match meets P f k r s with
    | none => none
    | some true => some (some s)
    | some false => meetsAny P f k r ss

/-- the first pair of `combinations(tmp, 2)` that meets (rewrites.py:198-199) -/
def findPair (P : Par) (f k : Nat) : List Ty → Option (Option (Ty × Ty))
  | [] => some none
  | r :: rs => match meetsAny P f k r rs with
    | none => none
    | some (some s) => some (some (r, s))
    | some none => findPair P f k rs

/-- the loop of `disjoin` (rewrites.py:197-206), at most `n` iterations; the set is iterated in the order `ord` -/
def loop (P : Par) (ord : List Ty → List Ty) (f : Nat) : Nat → Nat → List Ty → Option (List Ty × Nat)
  | 0, _, _ => none
  | n + 1, k, tmp => match findPair P f k (ord tmp) with
    | none => none
    | some none => some (tmp, k)
    | some (some (r, s)) => match antiUnifier P f k r s with
      | none => none
      | some (t, k) =>
        let t' := freshT k t
        loop P ord f n t'.2 (((tmp.erase r).erase s).insert t'.1)

/-- `disjoin(p)` (rewrites.py:194-206) -/
def disjoin (P : Par) (ord : List Ty → List Ty) (f n k : Nat) (p : List Ty) : Option (List Ty × Nat) :=
  loop P ord f n k p.dedup

end AntiUnify
end Verif
