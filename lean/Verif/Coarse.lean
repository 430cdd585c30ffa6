/-
`CoarseGraph` (`/repo/dyna/analyze/coarse_graph.py` 8-125): the coarse dependency graph of a program.

`inputs` and `outputs` are the heads of the declared inputs and outputs.  `sig` says which functors are builtin,
`fv`/`cv` are the allocated and the canonical variables (TermSets.lean).  `none` is an exception (`KeyError` of
`DisjointEstimate.find`), or fuel that ran out.  Graphs are those of Closure.lean; the edges of the hypergraph are a list.
Simplified: a rule that `scc_decomposition` puts into a subprogram is the rule itself (`q.append(r)` stores a renamed
copy).  Not modelled: `solve_input_independent`.
-/
import Verif.Closure
import Verif.Tarjan
import Verif.Prune

set_option linter.unusedSectionVars false
set_option linter.unusedSimpArgs false

namespace Verif
open Tm Heap
namespace Coarse
open Linearize (Sigs isBuiltin)
open Prune (bodyTerms terms allSome)
open DisjointEst (roots)
variable {W : Type}

/-- `nodes.root(x)` (term.py:1040-1047), as in TermSets.lean -/
def root (fv : Nat → Nat) (f : Nat) (S : TSet) (x : Tm) : Option Tm := (DisjointEst.root fv f S x).join

/-- `product(*ls)` -/
def product {α : Type} : List (List α) → List (List α)
  | [] => [[]]
  | l :: ls => l.flatMap fun a => (product ls).map (a :: ·)

/-- the attributes `nodes`, `g` and `h` (the edges, with the number of the rule) -/
structure CG where
  nodes : TSet
  g : Graph Tm
  h : List (Tm × Option Nat × List Tm)

/-- the hyperedges of one rule (30-35) -/
def hyperRule (sig : Sigs) (fv : Nat → Nat) (f : Nat) (S : TSet) (r : WRule W) (i : Nat) : Option (List (Tm × Option Nat × List Tm)) :=
  match roots fv f S r.head, allSome (roots fv f S) (bodyTerms sig r.body) with
  | some xs, some yys => some (xs.flatMap fun x => (product yys).map fun yy => (x, some i, yy))
  | _, _ => none

/-- the edges of one rule (42-45) -/
def graphRule (sig : Sigs) (fv : Nat → Nat) (f : Nat) (S : TSet) (g : Graph Tm) (r : WRule W) : Option (Graph Tm) :=
  match root fv f S r.head, allSome (root fv f S) (bodyTerms sig r.body) with
  | some x, some ys => some (ys.foldl (fun g y => g.addEdge x y) (g.add x))
  | _, _ => none

/-- the loop over the rules (41-45) -/
def graphRules (sig : Sigs) (fv : Nat → Nat) (f : Nat) (S : TSet) : List (WRule W) → Graph Tm → Option (Graph Tm)
  | [], g => some g
  | r :: rs, g => match graphRule sig fv f S g r with
    | none => none
    | some g => graphRules sig fv f S rs g

/-- `CoarseGraph(p)` (10-48) -/
def build (sig : Sigs) (fv cv : Nat → Nat) (f k : Nat) (rules : List (WRule W)) (inputs : List Tm) : Option CG :=
  match addAll (DisjointEst.add fv cv f) ⟨[], k⟩ (terms sig rules inputs) with                   -- 15-23
  | none => none
  | some S =>
    match allSome (root fv f S) inputs, allSome (fun ri : WRule W × Nat => hyperRule sig fv f S ri.1 ri.2) rules.zipIdx with   -- 27-35
    | some ins, some hs => match graphRules sig fv f S rules (ins.foldl Graph.add Graph.empty) with                            -- 38-45
      | none => none
      | some g => some ⟨S, g, ins.map (fun x => (x, none, [])) ++ hs.flatten⟩
    | _, _ => none

/-- `possibly_cyclic()` (96-103) -/
def possiblyCyclic (c : CG) : Bool :=
  let T := c.g.transitiveClosure false
  T.nodes.any fun i => decide (i ∈ T.succ i)

/-- the loop over the body in `possibly_expansive` (119-123) -/
def expBody (fv : Nat → Nat) (f : Nat) (S : TSet) (T : Graph Tm) (x : Tm) : List (Lit W) → Nat → Option Bool
  | [], _ => some false
  | .val _ :: b, n => expBody fv f S T x b n
  | .sub t :: b, n => match root fv f S t with
    | none => none
    | some y =>
      let n := n + if x ∈ T.succ y then 1 else 0
      if 1 < n then some true else expBody fv f S T x b n

/-- the loop over the rules (116-124) -/
def expRules (fv : Nat → Nat) (f : Nat) (S : TSet) (T : Graph Tm) : List (WRule W) → Option Bool
  | [] => some false
  | r :: rs => match root fv f S r.head with
    | none => none
    | some x => match expBody fv f S T x r.body 0 with
      | none => none
      | some true => some true
      | some false => expRules fv f S T rs

/-- `possibly_expansive()` (105-124) -/
def possiblyExpansive (fv : Nat → Nat) (f : Nat) (rules : List (WRule W)) (c : CG) : Option Bool :=
  expRules fv f c.nodes (c.g.transitiveClosure true) rules

/-- the loop of `split_input_dependent` (61-66): the rules that do not depend on inputs, and the others -/
def splitRules (fv : Nat → Nat) (f : Nat) (S : TSet) (T : Graph Tm) (inputs : List Tm) : List (WRule W) → Option (List (WRule W) × List (WRule W))
  | [] => some ([], [])
  | r :: rs => match root fv f S r.head, splitRules fv f S T inputs rs with
    | some x, some (i, d) => some (if (T.succ x).any fun y => decide (y ∈ inputs) then (i, r :: d) else (r :: i, d))
    | _, _ => none

/-- `split_input_dependent()` (50-68) -/
def split (fv : Nat → Nat) (f : Nat) (rules : List (WRule W)) (inputs : List Tm) (c : CG) : Option (List (WRule W) × List (WRule W)) :=
  splitRules fv f c.nodes (c.g.transitiveClosure true) inputs rules

/-- `p.is_output(x)` (program.py:517-519) -/
def isOutput (f : Nat) (outputs : List Tm) (x : Tm) : Option Bool :=
  (allSome (fun o => Heap.unifiesF f o x fun _ => none) outputs).map fun l => l.any id

/-- the rules appended to the subprogram of the component `xs` (90-93) -/
def sccRules (f : Nat) (xs : List Tm) : List (WRule W) → Option (List (WRule W))
  | [] => some []
  | r :: rs => match allSome (fun x => Heap.unifiesF f x r.head fun _ => none) xs, sccRules f xs rs with
    | some bs, some q => some ((bs.filter id).map (fun _ => r) ++ q)
    | _, _ => none

/-- a subprogram: its component, rules, and the heads of its inputs (88; the outputs are `xs`) -/
structure Sub (W : Type) where
  xs : List Tm
  rules : List (WRule W)
  inputs : List Tm

/-- everything that `scc_decomposition()` (79-94) yields; `ord` is the order in which the set of nodes is iterated -/
def sccDecomposition (f : Nat) (rules : List (WRule W)) (outputs : List Tm) (c : CG) (ord : List Tm) : Option (List (Sub W)) :=
  match allSome (isOutput f outputs) ord with
  | none => none
  | some bs =>
    let rs := ((ord.zip bs).filter Prod.snd).map Prod.fst
    match Tarjan.tarjan c.g.succ f (if rs.isEmpty then ord else rs) with            -- graphs.py:241
    | none => none
    | some sccs =>
      let E := Tarjan.condEdges c.g.succ ord sccs
      allSome (fun xs => (sccRules f xs rules).map fun q => ⟨xs, q, ((E.filter fun e => e.1 = xs).map Prod.snd).dedup.flatten⟩) sccs

end Coarse
end Verif
