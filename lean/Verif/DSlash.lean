/-
Derivation mapping of the slash transformation: `Slash.transform` and `_transform_node` (`/repo/dyna/transform/slash.py` 146-227), with
`Derivation.map` (`/repo/dyna/derivations.py` 78-88), `Program.d` (`/repo/dyna/program.py` 783-808) and, through `Reorder.construct`, the constructor of
`Derivation` (derivations.py:24-40).

The program is one that `Slash.slash` makes (without the flag `lct`).  An index `self.o[i]._index` is the place of the first rule of that kind: each kind that is
looked up here belongs to one rule.  `none` is an exception (`TypeError`, `AssertionError`, `KeyError`, `ValueError`) or the end of the fuel.  As in `Slash.lean`, a position
never selects a constant or a builtin, so the branch at 185-204 (`Derivation.base(dd)`) is not modelled.
-/
import Verif.Slash
import Verif.DFold

set_option linter.unusedSectionVars false
set_option linter.unusedSimpArgs false

namespace Verif
open Tm Heap
open Solver (noHeap)

namespace DSlash
open Slash (Kind Res slashT usefulOther other)
open DFold (treeTm ruleTm)
variable {W : Type}

/-- the `Slash` object, the positions, a code for semiring values as terms, the order of iteration over sets, and the fuel -/
structure Cfg (W : Type) where
  res : Res W
  pos : Nat → Option Nat
  code : W → Const
  ord : List Nat → List Nat
  f : Nat

/-- the attributes of the `Slash` object -/
def Cfg.c (E : Cfg W) : Slash.Cfg := { E.res.c with f := E.f }

/-- the index of the rule of this kind (117-118) -/
def Cfg.idx (E : Cfg W) (k : Kind) : Option Nat := (E.res.rules.map Prod.snd).idxOf? k

/-- `self.d(i)(x, *ks)` (program.py:805), `Derivation(Rule(x, *ks), p=self, I=i)` -/
def Cfg.make (E : Cfg W) (i : Option Nat) (x : Tm) (ks : List (DUnfold.Tree W)) : Option (DUnfold.Tree W) :=
  match i with
  | none => none
  | some i => match E.res.rules[i]? with
    | none => none
    | some R => match Reorder.construct E.f E.ord (ruleTm E.code R.1) x (treeTm E.code) ks with
      | some (some ks) => some (.node i x ks)
      | _ => none

/-- the loop of `guess_rule_id` (program.py:792-795): the first rule that covers the instance -/
def Cfg.guessGo (E : Cfg W) (x : Tm) (ks : List (DUnfold.Tree W)) : List (WRule W × Kind) → Nat → Option Nat
  | [], _ => none                                                                       -- 797-800
  | R :: Rs, i => match Subst.coversF E.f (ruleTm E.code R.1).tm (Rule.mk x (ks.map (treeTm E.code))).tm with
    | none => none
    | some true => some i
    | some false => Cfg.guessGo E x ks Rs (i + 1)

/-- `self.d(None)(x, *ks)` (program.py:789-802) -/
def Cfg.guess (E : Cfg W) (x : Tm) (ks : List (DUnfold.Tree W)) : Option (DUnfold.Tree W) := E.make (E.guessGo x ks E.res.rules 0) x ks

/-- `is_frozen` (154) for the item of a derivation -/
def Cfg.frozen (E : Cfg W) : DUnfold.Tree W → Bool
  | .node _ h _ => decide (hfn h = some E.res.c.ot)
  | .bi h => decide (hfn h = some E.res.c.ot)
  | .const _ => false

/-- `getx` (156); a constant cannot occur here, see above -/
def Cfg.getx (E : Cfg W) (o : DUnfold.Tree W) : Option Tm :=
  match o with
  | .const _ => none
  | .bi h => if E.frozen o then (match h with | .app (_ :: a :: _) => some a | _ => none) else some h
  | .node _ h _ => if E.frozen o then (match h with | .app (_ :: a :: _) => some a | _ => none) else some h

/-- `_transform_node(d)` (149-227) for rule number `n`, the item `x` and the children `ks`, already transformed (171, 182-184) -/
def Cfg.step (E : Cfg W) (n : Nat) (x : Tm) (ks : List (DUnfold.Tree W)) : Option (DUnfold.Tree W) :=
  match E.pos n with
  | none =>                                                                             -- 169
    match unifiesF E.f x E.res.c.X noHeap with
    | none => none
    | some true =>                                                                      -- 173
      match other E.c noHeap x with
      | none => none
      | some fx => match E.make (E.idx (.o n)) fx ks, E.make (E.idx .base) (slashT E.res.c.sl x x) [] with
        | some o, some b => E.guess x [o, b]
        | _, _ => none
    | some false =>
      match usefulOther E.c noHeap x with
      | none => none
      | some true =>                                                                    -- 177
        match other E.c noHeap x with
        | none => none
        | some fx => match E.make (E.idx (.o n)) fx ks with
          | some o => E.guess x [o]
          | none => none
      | some false => E.make (E.idx (.o n)) x ks                                          -- 179
  | some j =>
    match ks[j]? with
    | some (.node _ _ [o]) =>                                                           -- 206
      if E.frozen o = false then none else                                              -- 213
      match unifiesF E.f x E.res.c.X noHeap with
      | none => none
      | some true => none                                                               -- 217: `D_oo` takes one argument
      | some false =>
        match usefulOther E.c noHeap x with
        | none => none
        | some true =>                                                                  -- 220
          match other E.c noHeap x with
          | none => none
          | some fx => match E.make (E.idx (.oo n)) fx (ks.take j ++ o :: ks.drop (j + 1)) with
            | some o' => E.guess x [o']
            | none => none
        | some false => E.make (E.idx (.oo n)) x (ks.take j ++ o :: ks.drop (j + 1))      -- 222
    | some (.node _ _ [o, s]) =>                                                        -- 225-227
      match E.getx o with
      | none => none
      | some z => match E.make (E.idx (.ss n)) (slashT E.res.c.sl x z) (ks.take j ++ s :: ks.drop (j + 1)) with
        | some s' => E.guess x [o, s']
        | none => none
    | _ => none

mutual
/-- `transform(d)` (146-147) -/
def Cfg.tr (E : Cfg W) : DUnfold.Tree W → Option (DUnfold.Tree W)
  | .const k => some (.const k)
  | .bi t => some (.bi t)
  | .node n x ks => match E.trL ks with
    | none => none
    | some ks => E.step n x ks
/-- a product of derivations -/
def Cfg.trL (E : Cfg W) : List (DUnfold.Tree W) → Option (List (DUnfold.Tree W))
  | [] => some []
  | d :: ds => match E.tr d, E.trL ds with
    | some e, some es => some (e :: es)
    | _, _ => none
end

end DSlash
end Verif
