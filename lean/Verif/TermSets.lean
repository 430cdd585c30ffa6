/-
Anti-unification and the term collections of `/repo/dyna/term.py`: `generalizer` (605-659),
`NoDupsSet` (904-942), `MostGeneralSet` (945-997), `DisjointEstimate` (1000-1050).

All on terms without bound variables (`fresh` resolves bindings before anything is stored).
`fv i` is the `i`-th variable ever allocated by `Var()`; `k` counts allocations.  The collections are
modelled with `covers`/`same` of term.py as the relation (`Program` also instantiates them with the
rule-level relations, not modelled here).  An outer `none` means that fuel ran out.
-/
import Verif.TermOps

namespace Verif
open Tm

/-- `fresh(x)` (597-599) with allocation counter -/
def freshV (fv : Nat → Nat) (k : Nat) (x : Tm) : Tm × Nat :=
  let r := ren (fun i => fv (k + i)) x []
  (r.1, k + r.2.length)

/-! ### Anti-unification -/

/-- the two memo dicts of `generalizer` (keyed by terms) and the allocation counter -/
structure GS where
  s1 : Tm → Option Tm
  s2 : Tm → Option Tm
  k : Nat

namespace GS
def set1 (g : GS) (x v : Tm) : GS := { g with s1 := fun t => if t = x then some v else g.s1 t }
def set2 (g : GS) (x v : Tm) : GS := { g with s2 := fun t => if t = x then some v else g.s2 t }
def bump (g : GS) : GS := { g with k := g.k + 1 }
end GS

/-- the branch for a variable `x` (lines 617-629) -/
def genVar1 (fv : Nat → Nat) (x : Tm) (n : Nat) (y : Tm) (g : GS) : Tm × GS :=
  if n ∈ vars y then
    match g.s1 x with
    | none => (.var (fv g.k), (g.set1 x (.var (fv g.k))).bump)
    | some t => (t, g)
  else match g.s1 x with
    | some t => if t = y then (x, g) else (.var (fv g.k), (g.set1 x (.var (fv g.k))).bump)
    | none => (x, g.set1 x y)

/-- the branch for a variable `y` (lines 631-643) -/
def genVar2 (fv : Nat → Nat) (x : Tm) (y : Tm) (m : Nat) (g : GS) : Tm × GS :=
  if m ∈ vars x then
    match g.s2 y with
    | none => (.var (fv g.k), (g.set2 y (.var (fv g.k))).bump)
    | some t => (t, g)
  else match g.s2 y with
    | some t => if t = x then (y, g) else (.var (fv g.k), (g.set2 y (.var (fv g.k))).bump)
    | none => (y, g.set2 y x)

/-- the final `else` (lines 648-657) -/
def genElse (fv : Nat → Nat) (x y : Tm) (g : GS) : Tm × GS :=
  match g.s1 x with
  | some t => (t, g)
  | none => match g.s2 y with
    | some t => (t, g)
    | none => (.var (fv g.k), ((g.set1 x (.var (fv g.k))).set2 y (.var (fv g.k))).bump)

mutual
/-- `traverse(x, y)` (lines 611-657) -/
def traverse (fv : Nat → Nat) : Tm → Tm → GS → Tm × GS
  | .var n, y, g => if Tm.var n = y then (.var n, g) else genVar1 fv (.var n) n y g
  | .con c, y, g =>
    if Tm.con c = y then (.con c, g) else
    match y with
    | .var m => genVar2 fv (.con c) (.var m) m g
    | y => genElse fv (.con c) y g
  | .app as, y, g =>
    if Tm.app as = y then (.app as, g) else
    match y with
    | .var m => genVar2 fv (.app as) (.var m) m g
    | .app bs =>
      if as.length = bs.length ∧ as.head? = bs.head? then       -- 645: same length, same functor
        let r := traverseL fv as bs g
        (.app r.1, r.2)
      else genElse fv (.app as) (.app bs) g
    | y => genElse fv (.app as) y g
def traverseL (fv : Nat → Nat) : List Tm → List Tm → GS → List Tm × GS
  | a :: as, b :: bs, g =>
    let r := traverse fv a b g
    let rs := traverseL fv as bs r.2
    (r.1 :: rs.1, rs.2)
  | _, _, g => ([], g)
end

/-- `generalizer(t1, t2)` with empty dicts; returns the term and the allocation counter -/
def generalizer (fv : Nat → Nat) (k : Nat) (x y : Tm) : Tm × Nat :=
  let r := traverse fv x y ⟨fun _ => none, fun _ => none, k⟩
  (r.1, r.2.k)

/-! ### Collections -/

/-- stored terms and allocation counter -/
structure TSet where
  xs : List Tm
  k : Nat

namespace NoDups
/-- is some stored term `same` as `r`? (loop 926-929) -/
def scan (f : Nat) (r : Tm) : List Tm → Option Bool
  | [] => some false
  | s :: xs => match Subst.sameF f r s with
    | none => none
    | some true => some true
    | some false => scan f r xs
/-- `add` (918-931) -/
def add (fv : Nat → Nat) (f : Nat) (S : TSet) (r0 : Tm) : Option TSet :=
  let r := freshV fv S.k r0
  match scan f r.1 S.xs with
  | none => none
  | some true => some ⟨S.xs, r.2⟩
  | some false => some ⟨S.xs ++ [r.1], r.2⟩
/-- the search loop of `find` (935-937) -/
def findGo (f : Nat) (x : Tm) : List Tm → Option (Option Tm)
  | [] => some none
  | s :: xs => match Subst.sameF f s x with
    | none => none
    | some true => some (some s)
    | some false => findGo f x xs
/-- `root` (932-940); inner `none` is `KeyError` -/
def root (fv : Nat → Nat) (f : Nat) (S : TSet) (x : Tm) : Option (Option Tm) := findGo f (freshV fv S.k x).1 S.xs
end NoDups

namespace MostGeneral
/-- the loop of `add` (971-980): inner `none` = some stored term covers `r` (early return), otherwise
the stored terms not covered by `r` -/
def scan (f : Nat) (r : Tm) : List Tm → Option (Option (List Tm))
  | [] => some (some [])
  | s :: xs => match Subst.coversF f s r with
    | none => none
    | some true => some none
    | some false => match Subst.coversF f r s with
      | none => none
      | some b => match scan f r xs with
        | none => none
        | some none => some none
        | some (some keep) => some (some (if b then keep else s :: keep))
/-- `add` (962-982); also returns whether `r` was subsumed -/
def add (fv : Nat → Nat) (f : Nat) (S : TSet) (r0 : Tm) : Option (TSet × Bool) :=
  let r := freshV fv S.k r0
  match scan f r.1 S.xs with
  | none => none
  | some none => some (⟨S.xs, r.2⟩, true)
  | some (some keep) => some (⟨keep ++ [r.1], r.2⟩, false)
/-- `root` (983-992) -/
def findGo (f : Nat) (x : Tm) : List Tm → Option (Option Tm)
  | [] => some none
  | s :: xs => match Subst.coversF f s x with
    | none => none
    | some true => some (some s)
    | some false => findGo f x xs
def root (fv : Nat → Nat) (f : Nat) (S : TSet) (x : Tm) : Option (Option Tm) := findGo f (freshV fv S.k x).1 S.xs
end MostGeneral

namespace DisjointEst
/-- the loop of `add` (1027-1030) over the stored terms last to first; returns the kept ones (in their
original order), the merged term and the counter -/
def scan (fv : Nat → Nat) (f : Nat) : List Tm → Tm → Nat → Option (List Tm × Tm × Nat)
  | [], r, k => some ([], r, k)
  | x :: rev, r, k => match Heap.unifiesF f r x (fun _ => none) with
    | none => none
    | some true =>
      let g := generalizer fv k r x
      let r' := freshV fv g.2 g.1
      scan fv f rev r'.1 r'.2
    | some false => match scan fv f rev r k with
      | none => none
      | some (keep, r', k') => some (keep ++ [x], r', k')
/-- `add` (1017-1031) -/
def add (fv cv : Nat → Nat) (f : Nat) (S : TSet) (r0 : Tm) : Option TSet :=
  let r := freshV fv S.k r0
  match scan fv f S.xs.reverse r.1 r.2 with
  | none => none
  | some (keep, r', k') => some ⟨keep ++ [canonP cv r'], k'⟩
/-- `find_all` (1032-1039), returning the stored terms (`roots`, 1048-1050) -/
def roots (fv : Nat → Nat) (f : Nat) (S : TSet) (x : Tm) : Option (List Tm) :=
  let x' := (freshV fv S.k x).1
  let rec go : List Tm → Option (List Tm)
    | [] => some []
    | s :: xs => match Heap.unifiesF f x' s (fun _ => none) with
      | none => none
      | some b => match go xs with
        | none => none
        | some l => some (if b then s :: l else l)
  go S.xs
/-- `root` (1011, 1040-1047): inner `none` is `KeyError` -/
def root (fv : Nat → Nat) (f : Nat) (S : TSet) (x : Tm) : Option (Option Tm) :=
  (roots fv f S x).map fun l => match l with
    | [s] => some s
    | _ => none
end DisjointEst

/-- add a whole history, one term after the other -/
def addAll {σ : Type} (add : σ → Tm → Option σ) : σ → List Tm → Option σ
  | S, [] => some S
  | S, t :: ts => match add S t with
    | none => none
    | some S' => addAll add S' ts

end Verif
