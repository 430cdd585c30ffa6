/-
Derivation mapping of the left-corner transformation: `LCT.transform` and `LCT.transform_spine` (`/repo/dyna/transform/lct.py` 141-180), with
`Derivation.map` (`/repo/dyna/derivations.py` 78-88), `Program.d` (`/repo/dyna/program.py` 783-808) and `DisjointEstimate.root` (`/repo/dyna/term.py` 1011, 1032-1047).

The program is one that `Slash.slash` makes with the flag `lct`.  The object, its parts and the conventions are those of `DSlash.lean`; as there, a position never
selects a constant or a builtin, so `is_const(x)` (157-159) and `Derivation.base(d)` (167) are not modelled.
-/
import Verif.DSlash

set_option linter.unusedSectionVars false
set_option linter.unusedSimpArgs false

namespace Verif
open Tm Heap
open Solver (noHeap)

namespace DLct
open Slash (Kind Res slashT usefulOther other)
open DSlash (Cfg)
variable {W : Type}

/-- is it the rule `rso` for the nodes `a` and `b`? -/
def isRso (sl : Const) (a b : Tm) (R : WRule W × Kind) : Bool :=
  decide (R.2 = .rso) && decide (R.1.head = a) && match R.1.body with
    | [_, .sub t] => decide (t = slashT sl a b)
    | _ => false

/-- `self._parent_nodes.root` (144); the counter does not matter, the item has no variables -/
def coarsen (E : Cfg W) (x : Tm) : Option Tm := (DisjointEst.root E.res.c.fv E.f ⟨E.res.nodes, 0⟩ x).join

/-- `self.rso[coarsen(x), coarsen(z)]._index` (163).  The keys of the dict are copies of the nodes with new variables (lct.py:103, 110), and variables are equal
only to themselves (`/repo/dyna/term.py` 166-174): for a node with variables the lookup raises `KeyError`. -/
def rsoIdx (E : Cfg W) (x z : Tm) : Option Nat :=
  match coarsen E x, coarsen E z with
  | some a, some b => if vars a = ∅ ∧ vars b = ∅ then E.res.rules.findIdx? (isRso E.res.c.sl a b) else none
  | _, _ => none

/-- the item of a derivation (174) -/
def item : DUnfold.Tree W → Option Tm
  | .const _ => none                                                                    -- not modelled
  | .bi t => some t
  | .node _ t _ => some t

/-- `callback1(xxx)` (172-178): the rule `ss` for one step of the spine; `side` are the other children, transformed, and `acc` is `callback(xxx)` -/
def push (E : Cfg W) (y : Tm) (n j : Nat) (ks side : List (DUnfold.Tree W)) (acc : DUnfold.Tree W) : Option (DUnfold.Tree W) :=
  match (ks[j]?).bind item with
  | none => none
  | some q => E.make (E.idx (.ss n)) (slashT E.res.c.sl y q) (side ++ [acc])

/-- 160-163: the derivation `o` of the item at the bottom of the spine and the spine put together; `[xxx] = other.head.args` is 162 -/
def top (E : Cfg W) (x : Tm) : DUnfold.Tree W × DUnfold.Tree W → Option (DUnfold.Tree W)
  | (o, s) => match item o with
    | some (.app [_, z]) => E.make (rsoIdx E x z) x [s, o]
    | _ => none

mutual
/-- `transform(d)` (141-164) -/
def tr (E : Cfg W) : DUnfold.Tree W → Option (DUnfold.Tree W)
  | .const k => some (.const k)
  | .bi t => some (.bi t)
  | .node n x ks => match E.pos n with
    | none => match trL E ks with                                                       -- 145
      | none => none
      | some es => match usefulOther E.c noHeap x with
        | none => none
        | some true => match other E.c noHeap x with                                    -- 147-149
          | none => none
          | some fx => match E.make (E.idx (.o n)) fx es with
            | some o => E.guess x [o]
            | none => none
        | some false => E.guess x es                                                    -- 150
    | some j => match unifiesF E.f x E.res.c.X noHeap with
      | none => none
      | some false => match trL E ks with                                               -- 152-153
        | none => none
        | some es => E.guess x es
      | some true => match E.make (E.idx .base) (slashT E.res.c.sl x x) [], sides E j ks with   -- 155
        | some b, some es => match push E x n j ks es b with
          | none => none
          | some s => (down E j ks x s).bind (top E x)
        | _, _ => none
/-- a product of derivations -/
def trL (E : Cfg W) : List (DUnfold.Tree W) → Option (List (DUnfold.Tree W))
  | [] => some []
  | d :: ds => match tr E d, trL E ds with
    | some e, some es => some (e :: es)
    | _, _ => none
/-- all but child number `j` (175-176) -/
def sides (E : Cfg W) : Nat → List (DUnfold.Tree W) → Option (List (DUnfold.Tree W))
  | _, [] => some []
  | 0, _ :: ds => trL E ds
  | j + 1, d :: ds => match tr E d, sides E j ds with
    | some e, some es => some (e :: es)
    | _, _ => none
/-- the next step of the spine (180) -/
def down (E : Cfg W) : Nat → List (DUnfold.Tree W) → Tm → DUnfold.Tree W → Option (DUnfold.Tree W × DUnfold.Tree W)
  | _, [], _, _ => none
  | 0, d :: _, y, acc => sp E d y acc
  | j + 1, _ :: ds, y, acc => down E j ds y acc
/-- `transform_spine(d, y, callback)` (166-180) for an item `y`; `acc` is `callback` applied to the derivation by the base rule.  In place of the bottom of the
spine it returns that part already transformed (161). -/
def sp (E : Cfg W) : DUnfold.Tree W → Tm → DUnfold.Tree W → Option (DUnfold.Tree W × DUnfold.Tree W)
  | .const _, _, _ => none
  | .bi _, _, _ => none
  | .node n x ks, y, acc => match E.pos n with
    | none => match other E.c noHeap x, trL E ks with                                   -- 168-170
      | some fx, some es => match E.make (E.idx (.o n)) fx es with
        | some o => some (o, acc)
        | none => none
      | _, _ => none
    | some j => match sides E j ks with
      | none => none
      | some es => match push E y n j ks es acc with
        | none => none
        | some s => down E j ks y s
end

end DLct
end Verif
