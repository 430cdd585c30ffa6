import Mathlib.Data.List.Basic

/-!
# The graph of a collection of programs  (`dyna/programs.py`, `class ProgramGraph`)

`ProgramCollection.graph` (`programs.py:20-22`) records how each program of a collection was
derived: a hypergraph whose nodes are programs and whose edges are the transformations that
produced them.  `tidy` keeps the part of it that is justified from the nodes known to be correct.

A program *object* is modelled by its identity (`id(x)`), its class under program equality
(`cls`, what `==` and `hash` see, `program.py:542-550`) and the objects it was made from.  The rules
of the programs play no further part in this code.

Simplified: a python `set` of edges is a list in insertion order (every theorem about `tidy` is for
an arbitrary graph, so for every order); `self.graph[x]` at `programs.py:245` may add an empty
entry for `x` to the graph that is being tidied, which is left out; the rendering
(`programs.py:303-355`) is not modelled.
-/

set_option linter.unusedSectionVars false
set_option linter.unusedSimpArgs false

namespace Verif
namespace PG

variable {A : Type} [DecidableEq A]

/-- A program with its history: an original program; the result of a transformation with one parent
(`TransformedProgram`, `program.py:2193-2203`), `fresh` among them (`program.py:504-505`) whose
result equals its parent; `Fold` and `Unfold` with a parent and a program of definitions
(`transform/fold.py:10-26`, `transform/unfold.py:8-22`). -/
inductive Obj (A : Type) where
  | ref (id : ℕ) (a : A)
  | tr (id : ℕ) (name : String) (a : A) (parent : Obj A)
  | fresh (id : ℕ) (parent : Obj A)
  | fold (id : ℕ) (a : A) (parent defs : Obj A)
  | unfold (id : ℕ) (a : A) (parent defs : Obj A)
  deriving DecidableEq

/-- python's `id(x)` -/
def Obj.id : Obj A → ℕ
  | .ref i _ | .tr i _ _ _ | .fresh i _ | .fold i _ _ _ | .unfold i _ _ _ => i

/-- The class of the program under `==` (`program.py:542-550`): a fresh copy equals its parent. -/
def Obj.cls : Obj A → A
  | .ref _ a | .tr _ _ a _ | .fold _ a _ _ | .unfold _ a _ _ => a
  | .fresh _ p => p.cls

/-- An edge as `==` of tuples sees it: `(label, x, deps)`  (`programs.py:274-283`). -/
structure Edge (A : Type) where
  label : String
  head : A
  deps : List A
  deriving DecidableEq

/-- What `add` passes to (`programs.py:277-278`): the parent in place of a fresh copy. -/
def Obj.unfresh : Obj A → Obj A
  | .fresh _ p => p.unfresh
  | x => x

/-- The edge that `add` makes for a program (`programs.py:271-284`). -/
def edge : Obj A → Edge A
  | .fold _ a p d => ⟨"fold", a, [p.cls, d.cls]⟩
  | .unfold _ a p d => ⟨"unfold", a, [p.cls, d.cls]⟩
  | .fresh _ p => edge p
  | .tr _ n a p => ⟨n, a, [p.cls]⟩
  | .ref _ a => ⟨"ref", a, []⟩

/-- `self.graph = defaultdict(set)` (`programs.py:236`): its keys, and the set at each key; an edge
is kept with the program object it holds. -/
structure Graph (A : Type) where
  keys : List A
  at' : A → List (Edge A × Obj A)

def Graph.empty : Graph A := ⟨[], fun _ => []⟩

/-- `self.graph[x]` of a `defaultdict` makes the entry when there is none. -/
def Graph.touch (g : Graph A) (x : A) : Graph A :=
  if x ∈ g.keys then g else ⟨g.keys ++ [x], g.at'⟩

/-- `self.graph[x].add(e)` -/
def Graph.insert (g : Graph A) (x : A) (e : Edge A) (t : Obj A) : Graph A :=
  let g := g.touch x
  if e ∈ (g.at' x).map Prod.fst then g
  else ⟨g.keys, fun y => if y = x then g.at' x ++ [(e, t)] else g.at' y⟩

/-- `ProgramGraph.add` (`programs.py:271-284`) -/
def Graph.add (g : Graph A) : Obj A → Graph A
  | .fresh _ p => g.add p
  | x => g.insert x.cls (edge x) x

/-- `ProgramGraph.add_parents` (`programs.py:286-301`); the second component is the set `stack` of
the identities met, shared by the recursive calls. -/
def visit : Obj A → Graph A × List ℕ → Graph A × List ℕ
  | .fold i a p d, (g, s) =>
      if i ∈ s then (g, s) else visit d (visit p (g.add (.fold i a p d), i :: s))
  | .unfold i a p d, (g, s) =>
      if i ∈ s then (g, s) else visit d (visit p (g.add (.unfold i a p d), i :: s))
  | .fresh i p, (g, s) => if i ∈ s then (g, s) else (g.add p, i :: s)
  | .tr i n a p, (g, s) => if i ∈ s then (g, s) else visit p (g.add (.tr i n a p), i :: s)
  | .ref i a, (g, s) => if i ∈ s then (g, s) else (g.add (.ref i a), i :: s)

/-- `ProgramGraph.__init__` (`programs.py:235-237`): one call of `add_parents`, with its own
`stack`, per node. -/
def ofNodes (xs : List (Obj A)) : Graph A :=
  xs.foldl (fun g x => (visit x (g, [])).1) Graph.empty

/-- The body of the loops of `tidy` (`programs.py:246-250`): `x` is the node, `et` the edge. -/
def tidyStep (x : A) (st : Graph A × Bool) (et : Edge A × Obj A) : Graph A × Bool :=
  if et.1.deps.all (· ∈ st.1.keys) then
    let G := st.1.touch x
    if et.1 ∈ (G.at' x).map Prod.fst then (G, st.2) else (G.add et.2, true)
  else st

/-- One turn of the `while` of `tidy` (`programs.py:243-250`). -/
def tidyPass (g : Graph A) (correct : List A) (G : Graph A) : Graph A × Bool :=
  correct.foldl (fun st x => (g.at' x).foldl (tidyStep x) st) (G, false)

/-- The `while True` of `tidy` (`programs.py:242-251`), at most so many turns; `none` when they do
not suffice. -/
def tidyLoop (g : Graph A) (correct : List A) : ℕ → Graph A → Option (Graph A)
  | 0, _ => none
  | n + 1, G =>
      let r := tidyPass g correct G
      if r.2 then tidyLoop g correct n r.1 else some r.1

/-- `ProgramGraph.tidy` (`programs.py:239-253`) -/
def tidy (g : Graph A) (correct : List A) (fuel : ℕ) : Option (Graph A) :=
  tidyLoop g correct fuel Graph.empty

/-- `ProgramGraph.hg` (`programs.py:255-260`): the hyperedges `(x, label, body)` in the order in
which they are added. -/
def hg (g : Graph A) : List (A × String × List A) :=
  g.keys.flatMap (fun x => (g.at' x).map (fun et => (x, et.1.label, et.1.deps)))

end PG
end Verif
