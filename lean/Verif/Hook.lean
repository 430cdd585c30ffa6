/-
Introducing definitions: `/repo/dyna/program.py` `define` (1587-1593) with the rules of `Define` (2233-2239),
`hook` (1595-1608), `loop_absorption`/`_loop_absorption` (1610-1632), `basic_fold` (1578-1585),
`gen_functor` (1412-1417, term.py:18-21), `syms` (1398-1410) and `binarize` (2058-2071).

`term_vars` returns a set; its iteration order is the parameter `ord`.  A negative index in `js` (which python
would accept) is not modelled.  The allocation mark `k` for the fresh variables of the reversibility check stays
the same, because the rules made by the check are thrown away.
-/
import Verif.Fold

set_option linter.unusedSectionVars false
set_option linter.unusedSimpArgs false

namespace Verif
open Tm Heap

namespace Hook
open Unfold (Prog Ops)
open Fold (fold safeByRev)
variable {W : Type}

/-- `Define(parent, defs)` (program.py:2233-2239) -/
def define (p : Prog W) (defs : List (WRule W)) : Prog W := ⟨p.rules ++ defs, p.inputs⟩

/-- the functor of a body element that is a `Term` -/
def litFn : Lit W → Option Const
  | .val _ => none
  | .sub t => hfn t

/-- `self.syms` (program.py:1398-1410) -/
def syms (p : Prog W) : List Const := p.rules.flatMap fun r => (hfn r.head).toList ++ r.body.filterMap litFn

/-- the `n`-th name `$genN` (term.py:18-21) -/
def genName (n : Nat) : Const := .str ("$gen" ++ n.repr)

/-- `self.gen_functor()` (program.py:1412-1417) with the global counter `c`; `none` is the `AssertionError` -/
def genFunctor (p : Prog W) (c : Nat) : Option (Const × Nat) :=
  if genName (c + 1) ∈ syms p then none else some (genName (c + 1), c + 1)

/-- `[f for j,f in enumerate(r.body) if j not in js]` -/
def rest (r : WRule W) (js : List Nat) : List (Lit W) :=
  ((List.range r.body.length).filter fun j => decide (j ∉ js)).filterMap fun j => r.body[j]?

/-- `[r.body[j] for j in js]` -/
def picked (r : WRule W) (js : List Nat) : List (Lit W) := js.filterMap fun j => r.body[j]?

/-- `out_vars` (program.py:1626-1629) -/
def outVars (r : WRule W) (js : List Nat) : Finset Nat :=
  Sem.bodyVars (picked r js) \ (Sem.bodyVars r.body \ (Sem.bodyVars (rest r js) ∪ vars r.head))

/-- `_loop_absorption(i, js, name)` (program.py:1616-1632) -/
def absorb (ord : Finset Nat → List Nat) (r : WRule W) (js : List Nat) (name : Const) : WRule W :=
  ⟨.app (.con name :: (ord (outVars r js)).map .var), picked r js⟩

/-- `rev_rule` (program.py:1607) -/
def revRule (r tmp : WRule W) (js : List Nat) : WRule W := ⟨r.head, .sub tmp.head :: rest r js⟩

section
variable [One W] [DecidableEq W] {S' : Type} [DecidableEq S']

/-- what stays the same during a run: rule comparison, builtins, `multiple(inf)`, the allocation mark, the
iteration order of sets of variables -/
structure Env (W S' : Type) where
  o : RuleOps (WRule W) S'
  ops : Ops
  inf : W
  k : Nat
  ord : Finset Nat → List Nat

/-- `self.hook(i, js)` (program.py:1595-1608): the new program and the counter of generated names; `none` if an
exception is raised (`IndexError`, `AssertionError`, or `ValueError` when the fold is rejected) or fuel runs out -/
def hook (f : Nat) (e : Env W S') (p : Prog W) (c i : Nat) (js : List Nat) : Option (Prog W × Nat) :=
  match p.rules[i]? with
  | none => none
  | some r =>
    if js.any fun j => decide (r.body.length ≤ j) then none else
    match genFunctor p c with
    | none => none
    | some (name, c) =>
      let tmp := absorb e.ord r js name
      let rev := revRule r tmp js
      let q := define p [tmp]
      match safeByRev f e.o e.ops e.inf e.k q rev {i} 0 with
      | some true => some (fold q rev {i}, c)
      | _ => none

/-- the loop of `binarize` (program.py:2063-2071), with its own fuel -/
def binLoop (f : Nat) (e : Env W S') : Nat → Prog W → Nat → Nat → Option (Prog W × Nat)
  | 0, _, _, _ => none
  | g + 1, q, c, i =>
    match q.rules[i]? with
    | none => some (q, c)
    | some r =>
      if 2 < r.body.length then
        match hook f e q c i (List.range' 1 (r.body.length - 1)) with
        | none => none
        | some (q, c) => binLoop f e g q c (i + 1)
      else binLoop f e g q c (i + 1)

/-- `self.binarize()` (program.py:2058-2071) -/
def binarize (f : Nat) (e : Env W S') (p : Prog W) (c : Nat) : Option (Prog W × Nat) := binLoop f e f p c 0

end
end Hook
end Verif
