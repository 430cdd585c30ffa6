/-
The slash transformation (`/repo/dyna/transform/slash.py` 8-139) and the left-corner transformation
(`/repo/dyna/transform/lct.py` 6-144); both with `not_matches3` (`/repo/dyna/builtin.py` 106-110), the nodes of
`CoarseGraph` (`/repo/dyna/analyze/coarse_graph.py` 14-23) and `Program._gen_functor` (`/repo/dyna/program.py` 1418-1426).

The two constructors are the same up to the base rule and the rules `ss`; the flag `lct` tells them apart.
`fv`/`cv` are as in `TermSets.lean`: new variables and canonical variables.  `lam` stands for the object `lam(x)`
(builtin.py:93-103; these objects are equal because they hold copies of the same term).  `none` is an exception or the
end of the fuel.  Not modelled: positions that select a constant or a builtin (54-55 of slash.py), that building the
graphs of `CoarseGraph` can raise `KeyError`, and the dicts of rules kept for `transform` and `compute_measure` (the
kind of each rule stands for them).
-/
import Verif.Prune
import Verif.ProgIndex
import Verif.TermOps

set_option linter.unusedSectionVars false
set_option linter.unusedSimpArgs false

namespace Verif
open Tm Heap
open Solver (noHeap)

namespace Slash
open Linearize (Sigs isBuiltin)
open Unfold (derefR isInput)
variable {W : Type}

/-- which of the dicts `base`, `o`, `ss`, `oo`, `ro`, `rso` the rule is in -/
inductive Kind
  | base
  | o (i : Nat)
  | ss (i : Nat)
  | oo (i : Nat)
  | ro
  | rso
deriving DecidableEq

/-- `new_rs` and the allocation counter -/
structure St (W : Type) where
  out : List (WRule W × Kind)
  k : Nat

/-- what is fixed during the construction -/
structure Cfg where
  /-- left-corner transformation? -/
  lct : Bool
  sig : Sigs
  inputs : List Tm
  fv : Nat → Nat
  cv : Nat → Nat
  f : Nat
  lam : Const
  /-- `slash_fn`, `other_fn` -/
  sl : Const
  ot : Const
  /-- `self.x` -/
  X : Tm
  /-- `self._useful_other` -/
  useful : List Tm

/-- `fresh(r)` for a rule -/
def freshRule (fv : Nat → Nat) (k : Nat) (r : WRule W) : WRule W × Nat :=
  let h := ren (fun i => fv (k + i)) r.head []
  let b := WRule.renB (fun i => fv (k + i)) r.body h.2
  (⟨h.1, b.1⟩, k + b.2.length)

/-- `add_rule` (slash.py:42-45) -/
def St.add (fv : Nat → Nat) (st : St W) (r : WRule W) (kind : Kind) : St W :=
  let r' := freshRule fv st.k r
  ⟨st.out ++ [(r'.1, kind)], r'.2⟩

/-- `_slash` (120-122) -/
def slashT (sl : Const) (y x : Tm) : Tm := .app [.con sl, y, x]
/-- the wrapped item -/
def otherT (ot : Const) (x : Tm) : Tm := .app [.con ot, x]
/-- `$not_matches(lam(x), y)` -/
def nmT (lam : Const) (y : Tm) : Tm := .app [.con (.str "$not_matches"), .con lam, y]

/-- `any(unifies(x, y) for y in ys)` -/
def anyUnifies (f : Nat) (x : Tm) (h : Heap) : List Tm → Option Bool
  | [] => some false
  | y :: ys => match unifiesF f x y h with
    | none => none
    | some true => some true
    | some false => anyUnifies f x h ys

/-- `_is_useful_other(x)` (138-139) -/
def usefulOther (c : Cfg) (h : Heap) (x : Tm) : Option Bool := anyUnifies c.f x h c.useful

/-- `is_exogenous(x)` (program.py:528-530) for a term -/
def exo (c : Cfg) (h : Heap) (x : Tm) : Option Bool := if isBuiltin c.sig x then some true else isInput c.f x h c.inputs

/-- `_other(x)` (124-136) -/
def other (c : Cfg) (h : Heap) (x : Tm) : Option Tm :=
  match exo c h x with
  | none => none
  | some true => some x
  | some false => match usefulOther c h x with
    | none => none
    | some true => some (otherT c.ot x)
    | some false => some x

/-- the rule `ss` (slash.py:87, lct.py:86) for `h += L * q * R`; `Y` is the variable `Tmp` of lct.py -/
def ssRule (c : Cfg) (Y : Nat) (h : Tm) (L : List (Lit W)) (q : Tm) (R : List (Lit W)) : WRule W :=
  if c.lct then ⟨slashT c.sl (.var Y) q, L ++ R ++ [.sub (slashT c.sl (.var Y) h)]⟩
  else ⟨slashT c.sl h c.X, L ++ .sub (slashT c.sl q c.X) :: R⟩

/-- the body of the loop over the rules (66-90) -/
def ruleStep (c : Cfg) (Y : Nat) (pos : Nat → Option Nat) (st : St W) (r : WRule W) (i : Nat) : Option (St W) :=
  match pos i with
  | none =>
    match usefulOther c noHeap r.head with
    | none => none
    | some true => (other c noHeap r.head).map fun h => st.add c.fv ⟨h, r.body⟩ (.o i)
    | some false => some (st.add c.fv ⟨r.head, r.body⟩ (.o i))
  | some j =>
    match r.body[j]? with
    | some (.sub q) =>
      if isBuiltin c.sig q then none else                                               -- not modelled
      match unifiesF c.f c.X q noHeap with
      | none => none
      | some true =>
        match Subst.coversF c.f c.X q with                                              -- 82
        | some true => some (st.add c.fv (ssRule c Y r.head (r.body.take j) q (r.body.drop (j + 1))) (.ss i))
        | _ => none
      | some false =>
        let st := st.add c.fv (ssRule c Y r.head (r.body.take j) q (r.body.drop (j + 1))) (.ss i)
        match other c noHeap r.head, other c noHeap q with                              -- 89-90
        | some h, some b => some (st.add c.fv ⟨h, r.body.take j ++ .sub b :: r.body.drop (j + 1)⟩ (.oo i))
        | _, _ => none
    | _ => none

/-- the loop over the rules -/
def ruleLoop (c : Cfg) (Y : Nat) (pos : Nat → Option Nat) : List (WRule W) → Nat → St W → Option (St W)
  | [], _, st => some st
  | r :: rs, i, st => match ruleStep c Y pos st r i with
    | none => none
    | some st => ruleLoop c Y pos rs (i + 1) st

/-- the constraints yielded by `not_matches3(fresh(self.x), y)` (builtin.py:106-110) -/
def notMatches (c : Cfg) (x y : Tm) : Option (List (List (Lit W))) :=
  match x with
  | .var _ => some []
  | _ => match unifiesF c.f x y noHeap with
    | none => none
    | some false => some [[]]
    | some true => some [[.sub (nmT c.lam y)]]

/-- the rules `ro` (105-107) -/
def roStep (c : Cfg) (y : Tm) (st : St W) : Option (St W) :=
  match usefulOther c noHeap y with
  | none => none
  | some false => some st
  | some true =>
    let x := freshV c.fv st.k c.X
    match notMatches c x.1 y with
    | none => none
    | some cs => cs.foldl (fun st b => st.bind fun st => (other c noHeap y).map fun o => st.add c.fv ⟨y, .sub o :: b⟩ .ro) (some { st with k := x.2 })

/-- the body of the loop over unifiers (111-112) -/
def rsoBody (c : Cfg) (y x : Tm) : Body (St W) := fun h st =>
  match other c h x with
  | none => none
  | some o => match derefR h c.f (⟨y, [.sub o, .sub (slashT c.sl y x)]⟩ : WRule W) with
    | none => none
    | some r => some (h, st.add c.fv r .rso, .done)

/-- the rules `rso` (109-112) -/
def rsoLoop (c : Cfg) (y : Tm) : List Tm → St W → Option (St W)
  | [], st => some st
  | s :: ss, st =>
    let x := freshV c.fv st.k s
    match unifyF c.f c.X x.1 (rsoBody c y x.1) noHeap { st with k := x.2 } with
    | some (_, st, .done) => rsoLoop c y ss st
    | _ => none

/-- the body of the loop over the nodes (98-112) -/
def nodeStep (c : Cfg) (nodes : List Tm) (s : Tm) (st : St W) : Option (St W) :=
  match exo c noHeap s with
  | none => none
  | some true => some st
  | some false =>
    let y := freshV c.fv st.k s
    match roStep c y.1 { st with k := y.2 } with
    | none => none
    | some st => rsoLoop c y.1 nodes st

/-- the loop over the nodes -/
def nodeLoop (c : Cfg) (nodes : List Tm) : List Tm → St W → Option (St W)
  | [], st => some st
  | s :: ss, st => match nodeStep c nodes s st with
    | none => none
    | some st => nodeLoop c nodes ss st

/-- the subgoals at the positions (49-57) -/
def usefulList (pos : Nat → Option Nat) : List (WRule W) → Nat → List Tm
  | [], _ => []
  | r :: rs, i => (match pos i with
    | none => []
    | some j => match r.body[j]? with
      | some (.sub q) => [q]
      | _ => []) ++ usefulList pos rs (i + 1)

/-- the functors of the program that are strings -/
def strs (rules : List (WRule W)) : List String := (Hook.syms ⟨rules, []⟩).filterMap fun c => match c with
  | .str s => some s
  | _ => none

/-- the result: the rules, the names, the copy of `x` and the nodes -/
structure Res (W : Type) where
  rules : List (WRule W × Kind)
  c : Cfg
  nodes : List Tm

/-- `Slash(program, x, positions)` or `LCT(program, positions, x=x)` -/
def slash (lct : Bool) (f : Nat) (sig : Sigs) (fv cv : Nat → Nat) (lam : Const) (rules : List (WRule W)) (inputs : List Tm)
    (pos : Nat → Option Nat) (x : Tm) (k : Nat) : Option (Res W) :=
  match GenFunctor.genLocal (strs rules) "/" f, GenFunctor.genLocal (strs rules) "$other" f with
  | some sl, some ot =>
    let X := freshV fv k x
    match addAll (DisjointEst.add fv cv f) ⟨[], X.2⟩ (Prune.terms sig rules inputs) with
    | none => none
    | some S =>
      let c : Cfg := ⟨lct, sig, inputs, fv, cv, f, lam, .str sl, .str ot, X.1, X.1 :: usefulList pos rules 0⟩
      let Y := fv S.k
      let st : St W := ⟨[], S.k + 1⟩
      let st := st.add fv ⟨if lct then slashT c.sl (.var Y) (.var Y) else slashT c.sl X.1 X.1, []⟩ .base
      match ruleLoop c Y pos rules 0 st with
      | none => none
      | some st => match nodeLoop c S.xs S.xs st with
        | none => none
        | some st => some ⟨st.out, c, S.xs⟩
  | _, _ => none

end Slash
end Verif
