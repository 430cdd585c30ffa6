/-
Derivation mapping of an unfold: `/repo/dyna/transform/unfold.py` `Unfold.transform` (83-95), with
`Derivation.map` (`/repo/dyna/derivations.py` 78-88), `Derivation.base` (44-47) and `Program.d`
(`/repo/dyna/program.py` 783-808), for an unfold by the program itself (`defs` is the parent).

Then `self.Transform(d_middle, self.defs)` and `self.defs.Transform(d_middle_defs.body, self.parent)`
(program.py:2148-2187) hand back what they are given (`source is target`), and are left out.
The constructor of `Derivation` reorders the children if the rule does not cover them
(derivations.py:37-40); the model keeps them as they are, and the theorems show that the rule covers them.
`Rule` compares like any term (term.py:366-368), variables by identity; so `index` and `remove` are those of lists
of syntactic rules.  Exceptions (`KeyError`, `ValueError`) are `none`.  A builtin in the place of the
unfolded subgoal is not modelled.
-/
import Verif.Unfold

set_option linter.unusedSectionVars false
set_option linter.unusedSimpArgs false

namespace Verif
open Tm

namespace DUnfold
variable {W : Type}

/-- a derivation (derivations.py:16-47): a semiring value, a builtin atom, or rule number `i` with an item and
children -/
inductive Tree (W : Type)
  | const (c : W)
  | bi (t : Tm)
  | node (i : Nat) (head : Tm) (kids : List (Tree W))

mutual
/-- the values at the leaves, in the order in which `value` (derivations.py:49-66) multiplies them; a builtin
has the body `one` -/
def Tree.leaves [One W] : Tree W → List W
  | .const c => [c]
  | .bi _ => [1]
  | .node _ _ ks => leavesL ks
def leavesL [One W] : List (Tree W) → List W
  | [] => []
  | d :: ds => d.leaves ++ leavesL ds
end

mutual
/-- number of nodes -/
def Tree.size : Tree W → Nat
  | .const _ => 0
  | .bi _ => 0
  | .node _ _ ks => 1 + sizeL ks
def sizeL : List (Tree W) → Nat
  | [] => 0
  | d :: ds => d.size + sizeL ds
end

/-- the attributes of an `Unfold` object that the mapping uses: `i`, `j`, the rules of the parent and of the new
program, and `new2def` for the added rules, in order (unfold.py:53-74) -/
structure Cfg (W : Type) where
  i : Nat
  j : Nat
  old : List (WRule W)
  kept : List (WRule W)
  out : List (WRule W × Option Nat)

/-- the rules of the new program -/
def Cfg.new (c : Cfg W) : List (WRule W) := c.kept ++ c.out.map Prod.fst

/-- `def2new` (74): the last added rule with this number -/
def Cfg.def2new (c : Cfg W) (m : Nat) : Option Nat :=
  (c.out.zipIdx.reverse.find? fun o => o.1.2 == some m).map fun o => c.kept.length + o.2

variable [DecidableEq W]

mutual
/-- `transform(d)` (83-95) -/
def tr (c : Cfg W) : Tree W → Option (Tree W)
  | .const k => some (.const k)                                                         -- derivations.py:86-87
  | .bi t => some (.bi t)
  | .node n x ks =>
    if n = c.i then                                                                     -- 85
      match trAt c c.j ks with
      | some (m, ks') => (c.def2new m).map fun I => .node I x ks'                       -- 90-91
      | none => none
    else
      match c.old[n]?, trL c ks with
      | some R, some ks' => (c.new.idxOf? R).map fun I => .node I x ks'                 -- 93-94
      | _, _ => none
/-- a product of derivations (derivations.py:84-85) -/
def trL (c : Cfg W) : List (Tree W) → Option (List (Tree W))
  | [] => some []
  | d :: ds => match tr c d, trL c ds with
    | some d', some ds' => some (d' :: ds')
    | _, _ => none
/-- `d_middle.i` and `transform(d_left * d_middle.body * d_right)` (87-91), where `d_middle` is child number `j` -/
def trAt (c : Cfg W) : Nat → List (Tree W) → Option (Nat × List (Tree W))
  | _, [] => none
  | 0, .node m _ ks :: ds => match trL c ks, trL c ds with
    | some ks', some ds' => some (m, ks' ++ ds')
    | _, _ => none
  | 0, _ :: _ => none
  | j + 1, d :: ds => match tr c d, trAt c j ds with
    | some d', some (m, ds') => some (m, d' :: ds')
    | _, _ => none
end

/-- the mapping of `Unfold(p, i, j)`; `none` if the constructor fails (53-76) -/
def cfg [One W] (f : Nat) (ops : Unfold.Ops) (inf : W) (k : Nat) (p : Unfold.Prog W) (i j : Nat) : Option (Cfg W) :=
  match Unfold.unfold f ops inf k p p i j, p.rules[i]? with
  | some (_, s, .done), some r => some ⟨i, j, p.rules, p.rules.erase r, s.out⟩
  | _, _ => none

end DUnfold
end Verif
