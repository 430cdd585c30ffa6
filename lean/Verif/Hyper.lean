/-
Directed hypergraphs: class `Hypergraph` of `/repo/dyna/util/graphs.py` (lines 75-168).

Edge weights play no role in `reachability` and are dropped.  `agenda.pop()` of a Python set removes an
arbitrary element: the loops are modelled as transition relations in which every element may be popped.
-/
import Verif.Dict
import Mathlib.Data.Finset.Basic
import Mathlib.Logic.Relation

namespace Verif
namespace Hyper
variable {α : Type} [DecidableEq α]

/-- `Edge(weight, head, body)` (line 75) -/
structure HEdge (α : Type) where
  head : α
  body : List α
deriving DecidableEq

/-- `Hypergraph` (78-82): `incoming` (a defaultdict) and `nodes` -/
structure HGraph (α : Type) where
  incoming : Dict α (List (HEdge α))
  nodes : List α

def HGraph.empty : HGraph α := ⟨[], []⟩

/-- `self.incoming[x]` -/
def HGraph.inc (g : HGraph α) (x : α) : List (HEdge α) := (Dict.get g.incoming x).getD []

/-- `add_edge` (109-114) -/
def HGraph.addEdge (g : HGraph α) (head : α) (body : List α) : HGraph α :=
  ⟨Dict.set g.incoming head (g.inc head ++ [⟨head, body⟩]), g.nodes ++ head :: body⟩

/-- `edges` (99-101) -/
def HGraph.edges (g : HGraph α) : List (HEdge α) := g.incoming.flatMap fun p => p.2

/-- `outgoing[x]` (143-146): an edge is listed once per occurrence of `x` in its body -/
def HGraph.out (g : HGraph α) (x : α) : List (HEdge α) :=
  g.edges.flatMap fun e => (e.body.filter fun b => b = x).map fun _ => e

/-- a worklist state: the growing set and the agenda -/
structure WS (α : Type) where
  set : Finset α
  agenda : Finset α

/-- one pass of the inner loop (151-155) -/
def fwdEdge (s : WS α) (e : HEdge α) : WS α :=
  if ∀ b ∈ e.body, b ∈ s.set then
    if e.head ∈ s.set then s else ⟨insert e.head s.set, insert e.head s.agenda⟩
  else s
/-- the body of the first `while` for the popped `x` (149-155) -/
def fwdIter (g : HGraph α) (s : WS α) (x : α) : WS α := (g.out x).foldl fwdEdge ⟨s.set, s.agenda.erase x⟩
/-- lines 140-148 -/
def fwdInit (g : HGraph α) (inputs : Finset α) : WS α :=
  let C := inputs ∪ ((g.edges.filter fun e => e.body.isEmpty).map HEdge.head).toFinset
  ⟨C, C⟩
/-- one iteration of the first loop -/
inductive FStep (g : HGraph α) : WS α → WS α → Prop
  | pop (s x) : x ∈ s.agenda → FStep g s (fwdIter g s x)

/-- lines 163-166 -/
def bwdBody (C : Finset α) (s : WS α) (b : α) : WS α :=
  if b ∉ s.set ∧ b ∈ C then ⟨insert b s.set, insert b s.agenda⟩ else s
/-- lines 161-166 -/
def bwdEdge (C : Finset α) (s : WS α) (e : HEdge α) : WS α :=
  if e.head ∈ s.set then e.body.foldl (bwdBody C) s else s
/-- the body of the second `while` for the popped `x` (159-166) -/
def bwdIter (g : HGraph α) (C : Finset α) (s : WS α) (x : α) : WS α :=
  (g.inc x).foldl (bwdEdge C) ⟨s.set, s.agenda.erase x⟩
inductive BStep (g : HGraph α) (C : Finset α) : WS α → WS α → Prop
  | pop (s x) : x ∈ s.agenda → BStep g C s (bwdIter g C s x)

/-- `reachability(inputs, outputs)` (139-168): `C` and `T` are possible results of the two loops -/
def Reachability (g : HGraph α) (inputs outputs C T : Finset α) : Prop :=
  Relation.ReflTransGen (FStep g) (fwdInit g inputs) ⟨C, ∅⟩ ∧
  Relation.ReflTransGen (BStep g C) ⟨outputs, outputs⟩ ⟨T, ∅⟩

end Hyper
end Verif
