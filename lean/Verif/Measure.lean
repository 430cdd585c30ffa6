/-
The measure-based safety check of fold/unfold sequences: `/repo/dyna/transform/measure.py` (`measure_safety` 14-62,
`Measure` 65-138, `_freshness_violations` 171-198, `Min`/`Max` 322-337, `Interval` 348-381), the methods `compute_measure` of `Define`
(`/repo/dyna/program.py` 2233-2254), `Unfold` (`/repo/dyna/transform/unfold.py` 122-154) and `Fold`
(`/repo/dyna/transform/fold.py` 72-101, 146-185), and `Rule.folds_by` (`/repo/dyna/rule.py` 105-175).

Measures are expressions over the unknown sizes of the rules of the reference program; they are modelled by their
values for one assignment `a` of the unknowns.  The control flow never looks at these values, so a constraint is
modelled by its truth value under `a`.  With `sym = false` all unknowns are 1 (`safe_by_unit`).
`safe_by_smt` asks z3 for an assignment under which all constraints are true.
Not modelled: `derivation_measure`, printing, and programs made by other transformations (they get `zero_measure`).
-/
import Verif.Fold

set_option linter.unusedSectionVars false
set_option linter.unusedSimpArgs false

namespace Verif
open Tm Heap
open Solver (noHeap)

namespace Measure
open Unfold (Prog US Ops unfold freshR)
open Fold (fold minus)
variable {W : Type}

/-- `Interval` (measure.py:348-357) -/
structure Ival where
  lo : Int
  hi : Int
deriving DecidableEq

namespace Ival
/-- `__add__` (measure.py:364-365) -/
def add (x y : Ival) : Ival := ⟨x.lo + y.lo, x.hi + y.hi⟩
/-- `__sub__` (measure.py:367-368) -/
def sub (x y : Ival) : Ival := ⟨x.lo - y.hi, x.hi - y.lo⟩
end Ival

/-- `Min(vs)` (measure.py:322-328); `none` is the error for an empty list -/
def minOf : List Int → Option Int
  | [] => none
  | v :: vs => some (vs.foldl (fun m v => if v < m then v else m) v)
/-- `Max(vs)` (measure.py:331-337) -/
def maxOf : List Int → Option Int
  | [] => none
  | v :: vs => some (vs.foldl (fun m v => if v > m then v else m) v)

/-- `is_builtin(x)` (builtin.py:85-90) for terms without bound variables; `ops` has the comparison operators -/
def isBuiltin (ops : Ops) : Tm → Bool
  | .var _ => true
  | .app [.con c, _, _] => (ops c).isSome || c == .str "is" || c == .str "=" || c == .str "$not_matches"
  | .app [.con c, _] => c == .str "$free" || c == .str "$bound"
  | _ => false

/-- `min_size(x)` for one subgoal (measure.py:116-119) -/
def minSizeT (ops : Ops) : Tm → Int
  | .con _ => 0
  | t => if isBuiltin ops t then 0 else 1

def minSizeL (ops : Ops) : Lit W → Int
  | .val _ => 0
  | .sub t => minSizeT ops t

/-- `min_size(xs)` for a product (measure.py:113-115) -/
def minSize (ops : Ops) (b : List (Lit W)) : Int := (b.map (minSizeL ops)).sum

/-- a program object together with its measure: the rules, the lineage (nearest stage first; each stage has its identity
and, for a `Define`, its new rules), the measures of the rules, and the constraints -/
structure Rec (W : Type) where
  prog : Prog W
  lineage : List (Nat × List (WRule W))
  m : List Ival
  safe : List Bool

/-- `new_var()` (measure.py:81-87): the unknown number `i` and its constraint -/
def newVar (sym : Bool) (a : Nat → Int) (i : Nat) : Int × List Bool := if sym then (a i, [decide (a i > 0)]) else (1, [])

/-- the unknowns numbered from `b` on for a list of rules -/
def newVars (sym : Bool) (a : Nat → Int) (b : Nat) (rs : List (WRule W)) : List Ival × List Bool :=
  let xs := (List.range rs.length).map fun i => newVar sym a (b + i)
  (xs.map fun x => ⟨x.1, x.1⟩, xs.flatMap Prod.snd)

/-- `add_ref(p)` (measure.py:89-97); `id` is the identity of the program object -/
def addRef (sym : Bool) (a : Nat → Int) (id : Nat) (p : Prog W) : Rec W :=
  let v := newVars sym a 0 p.rules
  ⟨p, [(id, [])], v.1, v.2⟩

/-- `zero_measure(p)` (measure.py:141-143) -/
def zeroMeasure (p : Prog W) (lin : List (Nat × List (WRule W))) : Rec W :=
  ⟨p, lin, List.replicate p.rules.length ⟨0, 0⟩, [false]⟩

/-- `Define.compute_measure` (program.py:2241-2254); the unknowns are numbered from `b` on.  `none`: the assertion
that fails for no rules at all. -/
def defineM (sym : Bool) (a : Nat → Int) (b id : Nat) (P : Rec W) (news : List (WRule W)) : Option (Rec W) :=
  if news.length = 0 ∧ P.prog.rules.length ≠ 0 then none else
  let v := newVars sym a b news
  some ⟨⟨P.prog.rules ++ news, P.prog.inputs⟩, (id, news) :: P.lineage, P.m ++ v.1, P.safe ++ v.2⟩

/-- is one of them true -/
def anyO {α : Type} (g : α → Option Bool) : List α → Option Bool
  | [] => some false
  | x :: l => match g x, anyO g l with
    | some b, some c => some (b || c)
    | _, _ => none

/-- are there `_freshness_violations(parent, defs)` (measure.py:171-198); `k` is the allocation mark -/
def violates (f k : Nat) (P D : Rec W) : Option Bool :=
  anyO (fun stage =>
    if stage.1 ∈ P.lineage.map Prod.fst then some false else
    anyO (fun d => anyO (fun p => unifiesF f (freshR k d).1.head (freshR (freshR k d).2 p).1.head noHeap) P.prog.rules) stage.2) D.lineage

section
variable [DecidableEq W]

/-- the measures of rules copied from the parent, found by `parent.rules.index(r)` (unfold.py:143, fold.py:177) -/
def copied (P : Rec W) (rs : List (WRule W)) : Option (List Ival) := allSome (rs.map fun r => P.m[P.prog.rules.idxOf r]?)

/-- `Unfold.compute_measure` (unfold.py:122-154) for the program `P.unfold(i, j, defs=D)`; `none`: an exception (or no fuel) -/
def unfoldM [One W] (f : Nat) (ops : Ops) (inf : W) (k id : Nat) (P D : Rec W) (i j : Nat) : Option (Rec W) :=
  match unfold f ops inf k P.prog D.prog i j with
  | some (rules, st, .done) =>
    let new : Prog W := ⟨rules, P.prog.inputs⟩
    match violates f st.k P D with
    | none => none
    | some true => some (zeroMeasure new ((id, []) :: P.lineage))
    | some false =>
      match P.prog.rules[i]?, P.m[i]?, allSome (st.out.map fun t => t.2.bind fun n => D.m[n]?) with
      | some r, some mi, some ds =>
        match copied P (P.prog.rules.erase r) with
        | none => none
        | some rest =>
          let extra := minSize ops (r.body.take j) + minSize ops (r.body.drop (j + 1))
          some ⟨new, (id, []) :: P.lineage, rest ++ ds.map mi.add,
            P.safe ++ D.safe ++ ds.map fun e => decide ((mi.add e).lo + extra > 0)⟩
      | _, _, _ => none
  | _ => none

/-- what is kept of a `FoldedRule` (rule.py:178-): the new subgoal and the rest of the body -/
structure Folded (W : Type) where
  subgoal : Tm
  rest : List (Lit W)

/-- how values appear in rule bodies -/
def litTm (code : W → Const) : Lit W → Tm
  | .val k => .con (code k)
  | .sub t => t

/-- one way to cover in `Rule.folds_by` (rule.py:110-170); the inner `none`: rejected -/
def foldedBy (f : Nat) (code : W → Const) (p r : WRule W) (c : Product.Res) : Option (Option (Folded W)) :=
  match Subst.callF c.S f r.head, allSome (r.body.map fun l => Subst.callF c.S f (litTm code l)), allSome (c.R.map fun k => p.body[k]?) with
  | some head, some body, some rest =>
    let vb := varsL body
    let vr := Sem.bodyVars rest
    let annoying := (vars head \ vb) \ vr                                               -- 141
    let head' := head.sub fun n => if n ∈ annoying then .con (.str "junk") else .var n  -- 143
    let inside := vb \ vars head'                                                       -- 168
    let outside := vars p.head ∪ vr                                                     -- 169
    some (if Disjoint inside outside then some ⟨head', rest⟩ else none)
  | _, _, _ => none

/-- `p.folds_by(r)` (rule.py:104-175) -/
def ruleFolds (f : Nat) (ord : List Nat → List Nat) (code : W → Const) (p r : WRule W) : Option (List (Folded W)) :=
  match Product.covers f ord (r.body.map (litTm code)) (p.body.map (litTm code)) with
  | none => none
  | some cs => collect (fun c => (foldedBy f code p r c).map Option.toList) cs

variable {S' : Type} [DecidableEq S']

/-- difference and extra size for one pair of a parent rule and a definition (fold.py:91-95, 170, 180-184);
`pick` is the fold that the loop over the set `folds_by` ends with -/
def foldEntry (f : Nat) (ord : List Nat → List Nat) (ops : Ops) (code : W → Const) (pick : List (Folded W) → Option (Folded W)) (P D : Rec W)
    (pd : Nat × Nat) : Option (Ival × Int) :=
  match P.m[pd.1]?, D.m[pd.2]?, P.prog.rules[pd.1]?, D.prog.rules[pd.2]? with
  | some mp, some md, some rp, some rd =>
    match ruleFolds f ord code rp rd with
    | none => none
    | some l => match pick l with
      | none => none                                                                    -- KeyError
      | some t => some (mp.sub md, minSize ops ([] : List (Lit W)) + minSize ops t.rest)
  | _, _, _, _ => none

/-- `Fold.compute_measure` (fold.py:146-185) for the fold of the rules `S` of `P` into `r` by the definitions `D`;
`none`: an exception (or no fuel) -/
def foldM [One W] (f : Nat) (o : RuleOps (WRule W) S') (ord : List Nat → List Nat) (ops : Ops) (inf : W) (code : W → Const)
    (pick : List (Folded W) → Option (Folded W)) (k id : Nat) (P D : Rec W) (r : WRule W) (S : Finset Nat) (j : Nat) : Option (Rec W) :=
  let new := fold P.prog r S
  match unfold f ops inf k new D.prog 0 j with
  | some (u, st, .done) =>
    if o.progEq false P.prog.rules u = false then none else                             -- 148
    match violates f st.k P D with
    | none => none
    | some true => some (zeroMeasure new ((id, []) :: P.lineage))
    | some false =>
      let rev2par := o.align ord u P.prog.rules                                         -- 86
      let n := (new.rules.erase r).length
      match allSome (st.out.zipIdx.map fun t => match t.1.2, rev2par.lookup (some (n + t.2)) with
        | some D, some (some P) => some (P, D)
        | _, _ => none) with
      | none => none
      | some pairs =>
        match allSome (pairs.map (foldEntry f ord ops code pick P D)) with
        | none => none
        | some es =>
          match minOf (es.map (·.1.lo)), maxOf (es.map (·.1.hi)), copied P (minus P.prog.rules S) with
          | some lo, some hi, some rest =>
            some ⟨new, (id, []) :: P.lineage, ⟨lo, hi⟩ :: rest,
              P.safe ++ D.safe ++ es.map fun e => decide (e.1.lo + e.2 > 0)⟩
          | _, _, _ => none
  | _ => none

/-- `m.align(p)` (measure.py:48-53): the measure of an equal program, taken over; `lin` is the lineage of the program object -/
def alignM (o : RuleOps (WRule W) S') (ord : List Nat → List Nat) (R : Rec W) (p : Prog W) (lin : List (Nat × List (WRule W))) : Option (Rec W) :=
  let A := o.align ord p.rules R.prog.rules
  match allSome ((List.range R.prog.rules.length).map fun i => match A.lookup (some i) with
    | some (some j) => R.m[j]?
    | _ => none) with
  | none => none
  | some m => some ⟨p, lin, m, R.safe⟩

/-- `is_safe()` (measure.py:22-28) for the values of the constraints under one assignment -/
def Rec.ok (R : Rec W) : Bool := R.safe.all id

end
end Measure
end Verif
