/-
`Program.unfold_x` and `Program._unfold_x` (`/repo/dyna/program.py` 1552-1570): unfold the first `x` subgoal and prune, again
and again, until there is none left or nothing changes.

The variables of the pattern `x` are its own, so they are numbered from the allocation mark on.  Whatever `prune_fast` leaves open
(the representatives of its coarsening, `Verif.Prune.Fast`) is left open here too.  Parsing a pattern given as a string (1558) is
not modelled.
-/
import Verif.Unfold
import Verif.Prune
import Verif.RuleEq

set_option linter.unusedSectionVars false
set_option linter.unusedSimpArgs false

namespace Verif
open Tm Heap
open Solver (noHeap)
open Unfold (Ops Prog US unfold)
open Linearize (Sigs)
open Sem

namespace UnfoldX
variable {W : Type}

/-- the test `unifies(x, y)` of program.py:1569; `k` is the allocation mark -/
def hits (f k : Nat) (x : Tm) : Lit W → Option Bool
  | .val _ => some (match x with | .var _ => true | _ => false)
  | .sub y => unifiesF f (x.sub fun n => .var (k + n)) y noHeap

/-- `for j, y in enumerate(r.body)` (1568), from position `j` on -/
def firstIn (f k : Nat) (x : Tm) : List (Lit W) → Nat → Option (Option Nat)
  | [], _ => some none
  | l :: b, j => match hits f k x l with
    | none => none
    | some true => some (some j)
    | some false => firstIn f k x b (j + 1)

/-- `for i, r in enumerate(self)` (1567), from rule number `i` on -/
def first (f k : Nat) (x : Tm) : List (WRule W) → Nat → Option (Option (Nat × Nat))
  | [], _ => some none
  | r :: rs, i => match firstIn f k x r.body 0 with
    | none => none
    | some (some j) => some (some (i, j))
    | some none => first f k x rs (i + 1)

/-- what does not change: the operators and signatures of builtins, the two supplies of variables that pruning draws on, the
declared outputs and how rules are compared -/
structure Env (W S : Type) where
  ops : Ops
  sig : Sigs
  fv : Nat → Nat
  cv : Nat → Nat
  outputs : List Tm
  eq : RuleOps (WRule W) S

section
variable [CSemi W] [DecidableEq W] {S : Type} [DecidableEq S]

/-- `self._unfold_x(x)` (1565-1570) returns a program: `p'`, leaving the allocation mark at `k'` -/
def Step (e : Env W S) (x : Tm) (p : Prog W) (k : Nat) (p' : Prog W) (k' : Nat) : Prop :=
  ∃ f i j new st q, first f k x p.rules 0 = some (some (i, j)) ∧ unfold f e.ops infty k p p i j = some (new, st, .done) ∧
    Prune.Fast e.sig e.fv e.cv f st.k new p.inputs e.outputs q ∧ p' = ⟨q, p.inputs⟩ ∧ k' = st.k

/-- `self._unfold_x(x)` raises -/
def Raises (e : Env W S) (x : Tm) (p : Prog W) (k : Nat) : Prop :=
  ∃ f i j new st s, first f k x p.rules 0 = some (some (i, j)) ∧ unfold f e.ops infty k p p i j = some (new, st, s) ∧ s ≠ .done

/-- `self.unfold_x(x)` (1552-1563) returns `q` -/
inductive Run (e : Env W S) (x : Tm) : Prog W → Nat → Prog W → Prop
  | none {p k f} : first f k x p.rules 0 = some none → Run e x p k p
  | same {p k p' k'} : Step e x p k p' k' → e.eq.progEq false p'.rules p.rules = true → Run e x p k p
  | go {p k p' k' q} : Step e x p k p' k' → e.eq.progEq false p'.rules p.rules = false → Run e x p' k' q → Run e x p k q

end
end UnfoldX
end Verif
