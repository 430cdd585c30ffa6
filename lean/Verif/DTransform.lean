/-
Mapping derivations between programs: `Program.Transform` (`/repo/dyna/program.py` 2148-2190) with `transforms` (2027-2032), `root` (114, 2204) and
`Derivation.base` (`/repo/dyna/derivations.py` 44-47).

A program object is modelled by its identity, its class under program equality (`==`, program.py:543-550) and its parent; what the
programs contain plays no part in this code.  The mappings of each transformation (`target.transform`, `source.untransform`), the alignment of equal
programs and the constructor of derivations (`target.d`) are parameters.  `none` is an exception; running out of fuel is Python's `RecursionError`.
-/
import Verif.DUnfold
import Mathlib.Data.List.Basic
import Mathlib.Tactic.Common

set_option linter.unusedSectionVars false
set_option linter.unusedSimpArgs false

namespace Verif
namespace DTransform

variable {A X : Type} [DecidableEq A]

/-- a program object: its identity and its class; a `TransformedProgram` (program.py:2193-2204) also has a parent -/
inductive Obj (A : Type)
  | root (id : Nat) (cls : A)
  | step (id : Nat) (cls : A) (parent : Obj A)
deriving DecidableEq

/-- what `==` and `hash` see -/
def Obj.cls : Obj A → A
  | .root _ c => c
  | .step _ c _ => c

/-- `parent` (program.py:92, 2196) -/
def Obj.parent : Obj A → Option (Obj A)
  | .root _ _ => none
  | .step _ _ p => some p

/-- `root` (program.py:114, 2204) -/
def Obj.top : Obj A → Obj A
  | .root i c => .root i c
  | .step _ _ p => p.top

/-- `transforms()` (2027-2032) -/
def Obj.transforms : Obj A → List (Obj A)
  | .root i c => [.root i c]
  | .step i c p => .step i c p :: p.transforms

/-- `x in set(p.transforms())`, for the class of `x` -/
def within (c : A) (p : Obj A) : Bool := p.transforms.any fun q => decide (q.cls = c)

/-- a derivation (derivations.py:16-47): a leaf (`base`), or a node of program `p` by its rule number `i` -/
inductive D (A X : Type)
  | base (x : X)
  | node (p : Obj A) (i : Nat) (x : X) (kids : List (D A X))

/-- what the programs of a network bring along: `q.transform`, `q.untransform`, `dict(s.align(t))`, and `t.d(i)(x, *kids)` -/
structure Net (A X : Type) where
  fwd : Obj A → D A X → Option (D A X)
  bwd : Obj A → D A X → Option (D A X)
  align : Obj A → Obj A → Nat → Option Nat
  make : Obj A → Nat → X → List (D A X) → Option (D A X)

/-- `[g(y) for y in ys]` -/
def each (g : D A X → Option (D A X)) : List (D A X) → Option (List (D A X))
  | [] => some []
  | y :: ys => match g y, each g ys with
    | some z, some zs => some (z :: zs)
    | _, _ => none

/-- `Transform(d, target)` (2148-2190) for one derivation; the receiver is not used -/
def T (g : Net A X) : Nat → D A X → Obj A → Option (D A X)
  | 0, _, _ => none
  | _ + 1, .base x, _ => some (.base x)                                                 -- 2157
  | f + 1, .node s i x ks, t =>
    if t.top.cls ≠ s.top.cls then none else                                             -- 2160
    if !within t.cls s && !within s.cls t then                                          -- 2164-2165
      match T g f (.node s i x ks) s.top with
      | none => none
      | some d => T g f d t
    else if s = t then some (.node s i x ks)                                            -- 2167-2168
    else if s.cls = t.cls then                                                          -- 2170-2178
      match g.align s t i, each (fun y => T g f y t) ks with
      | some j, some ys => g.make t j x ys
      | _, _ => none
    else if within s.cls t then                                                         -- 2180-2184
      match t.parent with
      | none => none
      | some p => if s.cls = p.cls then g.fwd t (.node s i x ks) else
        match T g f (.node s i x ks) p with
        | none => none
        | some d => T g f d t
    else                                                                                -- 2186-2190
      match s.parent with
      | none => none
      | some p => if p.cls = t.cls then g.bwd s (.node s i x ks) else
        match T g f (.node s i x ks) p with
        | none => none
        | some d => T g f d t

/-- `Transform(ds, target)` for a product or list (2154-2155) -/
def TL (g : Net A X) (f : Nat) (ds : List (D A X)) (t : Obj A) : Option (List (D A X)) := each (fun y => T g f y t) ds

/-! ### The mapping of an `Unfold` object as one step of a network -/

mutual
/-- a derivation without the programs at its nodes -/
def strip {W : Type} : D A (Tm ⊕ W) → Option (DUnfold.Tree W)
  | .base (.inr w) => some (.const w)
  | .base (.inl t) => some (.bi t)
  | .node _ _ (.inr _) _ => none
  | .node _ i (.inl t) ks => (stripL ks).map fun ks => .node i t ks
def stripL {W : Type} : List (D A (Tm ⊕ W)) → Option (List (DUnfold.Tree W))
  | [] => some []
  | d :: ds => match strip d, stripL ds with
    | some e, some es => some (e :: es)
    | _, _ => none
end

mutual
/-- a derivation of program `p` -/
def label {W : Type} (p : Obj A) : DUnfold.Tree W → D A (Tm ⊕ W)
  | .const w => .base (.inr w)
  | .bi t => .base (.inl t)
  | .node i t ks => .node p i (.inl t) (labelL p ks)
def labelL {W : Type} (p : Obj A) : List (DUnfold.Tree W) → List (D A (Tm ⊕ W))
  | [] => []
  | d :: ds => label p d :: labelL p ds
end

/-- `transform` of the `Unfold` object `q` (unfold.py:83-95).  The assertion `n.p == self.parent` compares with `==` (classes); `n.R` is rule `n.i` of the
program of the derivation, which may be another program than the parent.  The programs inside the derivation are taken to be that of its top node. -/
def unfoldFwd {W : Type} [DecidableEq W] (c : DUnfold.Cfg W) (rules : Obj A → List (WRule W)) (q : Obj A) : D A (Tm ⊕ W) → Option (D A (Tm ⊕ W))
  | .base x => some (.base x)
  | .node p i x ks =>
    if q.parent.map Obj.cls = some p.cls then
      (strip (.node p i x ks)).bind fun t => (DUnfold.tr { c with old := rules p } t).map (label q)
    else none

end DTransform
end Verif
