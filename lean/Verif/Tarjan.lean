/-
Tarjan's strongly connected components: `tarjan` of `/repo/dyna/util/graphs.py` (lines 341-392), and
`Graph.condensation` (239-258).

`successors(v)` is an arbitrary function to lists (the code iterates a Python set: any order).  The generator
is modelled by the list of everything it yields; its local variables are not visible to the consumer.
`none` means that the recursion depth was exhausted, or that `stack.pop()`/`trail.remove` raised; the theorem
file shows that neither happens.
-/
import Verif.Dict
import Mathlib.Data.Finset.Basic

namespace Verif
namespace Tarjan
variable {α : Type} [DecidableEq α]

/-- the local variables of `tarjan` (lines 349-353) and what has been yielded so far -/
structure TS (α : Type) where
  lowest : α → Option Nat
  stack : List α          -- top first
  trail : Finset α
  t : Nat
  out : List (List α)

/-- the `while True` loop (383-387) -/
def popTo (v : α) : List α → Finset α → List α → Option (List α × Finset α × List α)
  | [], _, _ => none
  | w :: st, tr, C =>
    if w ∈ tr then
      if w = v then some (st, tr.erase w, C ++ [w]) else popTo v st (tr.erase w) (C ++ [w])
    else none

/-- `lowest[v] = min(lowest[v], lowest[w])` (371, 377) -/
def TS.relax (s : TS α) (v w : α) : Option (TS α) :=
  match s.lowest v, s.lowest w with
  | some a, some b => some { s with lowest := fun x => if x = v then some (min a b) else s.lowest x }
  | _, _ => none

/-- the `for w in successors(v)` loop (364-377), with the recursive call as a parameter -/
def loop (dfs : α → TS α → Option (TS α)) (v : α) : List α → TS α → Option (TS α)
  | [], s => some s
  | w :: ws, s =>
    match s.lowest w with
    | none =>
      match dfs w s with
      | none => none
      | some s1 => match s1.relax v w with
        | none => none
        | some s2 => loop dfs v ws s2
    | some _ =>
      if w ∈ s.trail then
        match s.relax v w with
        | none => none
        | some s2 => loop dfs v ws s2
      else loop dfs v ws s

/-- lines 356-362 -/
def TS.push (s : TS α) (v : α) : TS α :=
  { lowest := fun x => if x = v then some (s.t + 1) else s.lowest x
    stack := v :: s.stack
    trail := insert v s.trail
    t := s.t + 1
    out := s.out }

/-- `dfs(v)` (355-388) -/
def dfs (succ : α → List α) : Nat → α → TS α → Option (TS α)
  | 0, _, _ => none
  | f + 1, v, s =>
    match loop (dfs succ f) v (succ v) (s.push v) with
    | none => none
    | some s1 =>
      if s1.lowest v = some (s.t + 1) then
        match popTo v s1.stack s1.trail [] with
        | none => none
        | some (st, tr, C) => some { s1 with stack := st, trail := tr, out := s1.out ++ [C] }
      else some s1

/-- lines 390-392 -/
def roots (succ : α → List α) (f : Nat) : List α → TS α → Option (TS α)
  | [], s => some s
  | v :: vs, s =>
    match s.lowest v with
    | none => match dfs succ f v s with
      | none => none
      | some s1 => roots succ f vs s1
    | some _ => roots succ f vs s

/-- `list(tarjan(successors, roots))` -/
def tarjan (succ : α → List α) (f : Nat) (rs : List α) : Option (List (List α)) :=
  (roots succ f rs ⟨fun _ => none, [], ∅, 0, []⟩).map (·.out)

/-- `sccs[s[x]]` where `s = {x: i for i, xs in enumerate(sccs) for x in xs}` (242): later entries overwrite -/
def compOf (sccs : List (List α)) (x : α) : Option (List α) := sccs.reverse.find? fun c => c.contains x

/-- the arguments of all calls of `c.add_edge` in `condensation` (244-253) -/
def condEdges (succ : α → List α) (nodes : List α) (sccs : List (List α)) : List (List α × List α) :=
  nodes.flatMap fun x =>
    match compOf sccs x with
    | none => []                                       -- 246
    | some X => (succ x).flatMap fun y =>
      if X.contains y then []                          -- 250
      else match compOf sccs y with
        | none => []                                   -- 251
        | some Y => [(X, Y)]

end Tarjan
end Verif
