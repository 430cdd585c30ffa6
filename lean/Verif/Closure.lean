/-
Model of `Graph` and `Graph.transitive_closure` (`/repo/dyna/util/graphs.py:205-236, 303-330`).
-/
import Verif.Kleene
import Mathlib.Algebra.Ring.Basic

namespace Verif

/-- The Boolean semiring of the `semirings` package used by `transitive_closure`:
`+` is or, `*` is and, `star(x) = one` (external package, modelled from its use). -/
structure Boolean where
  score : Bool
deriving DecidableEq

namespace Boolean
instance : Zero Boolean := ⟨⟨false⟩⟩
instance : One Boolean := ⟨⟨true⟩⟩
instance : Add Boolean := ⟨fun a b => ⟨a.score || b.score⟩⟩
instance : Mul Boolean := ⟨fun a b => ⟨a.score && b.score⟩⟩
def star (_ : Boolean) : Boolean := 1

@[simp] theorem score_zero : (0 : Boolean).score = false := rfl
@[simp] theorem score_one : (1 : Boolean).score = true := rfl
@[simp] theorem score_add (a b : Boolean) : (a + b).score = (a.score || b.score) := rfl
@[simp] theorem score_mul (a b : Boolean) : (a * b).score = (a.score && b.score) := rfl
theorem ext' {a b : Boolean} (h : a.score = b.score) : a = b := by cases a; cases b; simp_all

instance : CommSemiring Boolean where
  add_assoc a b c := ext' (by simp [Bool.or_assoc])
  zero_add a := ext' (by simp)
  add_zero a := ext' (by simp)
  add_comm a b := ext' (by simp [Bool.or_comm])
  mul_assoc a b c := ext' (by simp [Bool.and_assoc])
  one_mul a := ext' (by simp)
  mul_one a := ext' (by simp)
  mul_comm a b := ext' (by simp [Bool.and_comm])
  zero_mul a := ext' (by simp)
  mul_zero a := ext' (by simp)
  left_distrib a b c := ext' (by simp [Bool.and_or_distrib_left])
  right_distrib a b c := ext' (by simp [Bool.and_or_distrib_right])
  nsmul := nsmulRec
end Boolean

/-- `Graph` (graphs.py:205-232): a set of nodes (listed in its iteration order, without repetition)
and the `outgoing` sets. -/
structure Graph (α : Type*) where
  nodes : List α
  outgoing : Dict α (List α)

namespace Graph
variable {α : Type*} [DecidableEq α]

/-- `__getitem__` on the `defaultdict` (graphs.py:219-220) -/
def succ (g : Graph α) (u : α) : List α := (g.outgoing.get u).getD []

/-- adding to a Python set -/
def setAdd (l : List α) (x : α) : List α := if x ∈ l then l else l ++ [x]

/-- `add` (graphs.py:225-226) -/
def add (g : Graph α) (u : α) : Graph α := { g with nodes := setAdd g.nodes u }

/-- `add_edge` (graphs.py:228-231) -/
def addEdge (g : Graph α) (u v : α) : Graph α :=
  { nodes := setAdd (setAdd g.nodes u) v
    outgoing := g.outgoing.set u (setAdd (g.succ u) v) }

def empty : Graph α := ⟨[], []⟩

/-- `Graph(edges)` (graphs.py:207-211) -/
def ofEdges (es : List (α × α)) : Graph α := es.foldl (fun g e => g.addEdge e.1 e.2) empty

/-- the Boolean adjacency matrix `E` (graphs.py:309-318); node `i` is the `i`-th node interned -/
def adj (g : Graph α) : Fin g.nodes.length → Fin g.nodes.length → Boolean :=
  fun i j => if g.nodes[j] ∈ g.succ g.nodes[i] then 1 else 0

/-- `transitive_closure(reflexive)` (graphs.py:303-330) -/
def transitiveClosure (g : Graph α) (reflexive : Bool) : Graph α :=
  let T := Kleene.kleene Boolean.star g.adj reflexive
  let g0 := g.nodes.foldl add empty
  (List.finRange g.nodes.length).foldl (fun h i =>
    (List.finRange g.nodes.length).foldl (fun h j =>
      if (T i j).score then h.addEdge g.nodes[i] g.nodes[j] else h) h) g0

end Graph
end Verif
