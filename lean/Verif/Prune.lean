/-
`prune_very_fast` and `prune_fast` (`/repo/dyna/analyze/dead.py` 14-18, 74-173; called from program.py:1789-1797).

The search in the hypergraph is the one of `Hyper.lean`; its result depends on the order in which sets are
iterated, so the results of the two functions are relations.  `inputs` and `outputs` are the heads of the declared
inputs and outputs.  `fv`/`cv` are as in `TermSets.lean`.  Not modelled: the transformation history, and that the
same program object is returned if no rule is removed.
-/
import Verif.Hyper
import Verif.TermSets
import Verif.Linearize

set_option linter.unusedSectionVars false
set_option linter.unusedSimpArgs false

namespace Verif
open Tm Heap

namespace Prune
open Hyper
open Linearize (Sigs isBuiltin)
variable {W : Type}

/-- `x.fn`; `none` is `AttributeError` (variables have no functor) -/
def fn : Tm → Option Const
  | .app (.con c :: _) => some c
  | _ => none

/-- `program.is_const(b) or program.is_builtin(b)` (82, 114, 140) -/
def skip (sig : Sigs) : Lit W → Bool
  | .val _ => true
  | .sub t => isBuiltin sig t

/-- the functors of the subgoals that are not skipped (82) -/
def bodyFns (sig : Sigs) : List (Lit W) → Option (List Const)
  | [] => some []
  | .val _ :: b => bodyFns sig b
  | .sub t :: b =>
    if isBuiltin sig t then bodyFns sig b
    else match fn t, bodyFns sig b with
      | some c, some cs => some (c :: cs)
      | _, _ => none

/-- one entry of `E` (82-83) -/
def fnEdge (sig : Sigs) (r : WRule W) : Option (HEdge Const) :=
  match fn r.head, bodyFns sig r.body with
  | some h, some bs => some ⟨h, bs⟩
  | _, _ => none

/-- `[f(x) for x in xs]` where `f` can raise -/
def allSome {α β : Type} (f : α → Option β) : List α → Option (List β)
  | [] => some []
  | a :: l => match f a, allSome f l with
    | some b, some bs => some (b :: bs)
    | _, _ => none

/-- `for ... in E: g.add_edge(h,i,*bs)` (85-87) -/
def build {α : Type} [DecidableEq α] (es : List (HEdge α)) : HGraph α := es.foldl (fun g e => g.addEdge e.head e.body) HGraph.empty

/-- the rules kept (91-94) -/
def activeFn (T : Finset Const) (rules : List (WRule W)) (E : List (HEdge Const)) : List (WRule W) :=
  ((E.zip rules).filter fun er => decide (er.1.head ∈ T) && er.1.body.all fun b => decide (b ∈ T)).map Prod.snd

/-- `q` is a possible result of `_hg_prune_very_fast` (74-99) -/
def VeryFast (sig : Sigs) (rules : List (WRule W)) (inputs outputs : List Tm) (q : List (WRule W)) : Prop :=
  ∃ ins outs E C T, allSome fn inputs = some ins ∧ allSome fn outputs = some outs ∧ allSome (fnEdge sig) rules = some E ∧
    Reachability (build E) ins.toFinset outs.toFinset C T ∧ q = activeFn T rules E

/-! ### `ProgramCoarsening` -/

/-- `nodes.find_all(x)` (term.py:1032-1039): positions of the stored terms that unify with `x` -/
def findGo (f : Nat) (x : Tm) : List (Tm × Nat) → Option (List Nat)
  | [] => some []
  | (s, i) :: xs => match Heap.unifiesF f x s (fun _ => none), findGo f x xs with
    | some b, some l => some (if b then i :: l else l)
    | _, _ => none
def findAll (fv : Nat → Nat) (f : Nat) (S : TSet) (x : Tm) : Option (List Nat) := findGo f (freshV fv S.k x).1 S.xs.zipIdx

/-- `self._f(x)` for one body element (138-144): the options, each a tuple of length 0 or 1 -/
def opts (sig : Sigs) (fv : Nat → Nat) (f : Nat) (S : TSet) (l : Lit W) : Option (List (List Nat)) :=
  match l with
  | .val _ => some [[]]
  | .sub t => if isBuiltin sig t then some [[]] else (findAll fv f S t).map fun l => l.map fun i => [i]

/-- `self.f(*xs)` (146-152) -/
def combos (sig : Sigs) (fv : Nat → Nat) (f : Nat) (S : TSet) : List (Lit W) → Option (List (List Nat))
  | [] => some [[]]
  | l :: b => match opts sig fv f S l, combos sig fv f S b with
    | some vs, some ws => some (vs.flatMap fun v => ws.map fun w => v ++ w)
    | _, _ => none

/-- `for [i] in self.f(x)` (121, 124, 129, 130); `none`: a builtin makes the unpacking fail -/
def single (sig : Sigs) (fv : Nat → Nat) (f : Nat) (S : TSet) (x : Tm) : Option (List Nat) :=
  if isBuiltin sig x then none else findAll fv f S x

/-- the terms added to `nodes` (109-115) -/
def bodyTerms (sig : Sigs) : List (Lit W) → List Tm
  | [] => []
  | .val _ :: b => bodyTerms sig b
  | .sub t :: b => if isBuiltin sig t then bodyTerms sig b else t :: bodyTerms sig b
def terms (sig : Sigs) (rules : List (WRule W)) (inputs : List Tm) : List Tm :=
  inputs ++ rules.flatMap fun r => r.head :: bodyTerms sig r.body

/-- the edges of one rule (124-126) -/
def ruleEdges (sig : Sigs) (fv : Nat → Nat) (f : Nat) (S : TSet) (r : WRule W) : Option (List (HEdge Nat)) :=
  match single sig fv f S r.head, combos sig fv f S r.body with
  | some xs, some ys => some (xs.flatMap fun x => ys.map fun y => ⟨x, y⟩)
  | _, _ => none

/-- `ProgramCoarsening(p)` (105-131): the nodes, the edges, the coarse inputs and outputs -/
def coarsen (sig : Sigs) (fv cv : Nat → Nat) (f k : Nat) (rules : List (WRule W)) (inputs outputs : List Tm) :
    Option (TSet × List (HEdge Nat) × List Nat × List Nat) :=
  match addAll (DisjointEst.add fv cv f) ⟨[], k⟩ (terms sig rules inputs) with
  | none => none
  | some S =>
    match allSome (single sig fv f S) inputs, allSome (ruleEdges sig fv f S) rules, allSome (single sig fv f S) outputs with
    | some ins, some es, some outs => some (S, ins.flatten.map (fun i => ⟨i, []⟩) ++ es.flatten, ins.flatten, outs.flatten)
    | _, _, _ => none

/-- `good(x)` (165-166, 133-136) -/
def good (sig : Sigs) (fv : Nat → Nat) (f : Nat) (S : TSet) (T : Finset Nat) (l : Lit W) : Option Bool :=
  (opts sig fv f S l).map fun vs => vs.any fun v => v.all fun i => decide (i ∈ T)

/-- the test of line 168 -/
def active (sig : Sigs) (fv : Nat → Nat) (f : Nat) (S : TSet) (T : Finset Nat) (r : WRule W) : Option Bool :=
  (allSome (good sig fv f S T) (.sub r.head :: r.body)).map fun bs => bs.all id

/-- `q` is a possible result of `prune_fast` (158-173) -/
def Fast (sig : Sigs) (fv cv : Nat → Nat) (f k : Nat) (rules : List (WRule W)) (inputs outputs : List Tm) (q : List (WRule W)) : Prop :=
  ∃ S es ins outs C T bs, coarsen sig fv cv f k rules inputs outputs = some (S, es, ins, outs) ∧
    Reachability (build es) ins.toFinset outs.toFinset C T ∧ allSome (active sig fv f S T) rules = some bs ∧
    q = ((bs.zip rules).filter Prod.fst).map Prod.snd

end Prune
end Verif
