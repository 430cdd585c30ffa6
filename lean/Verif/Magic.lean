/-
`Program.magic_templates` (`/repo/dyna/program.py` 902-950) and `Program._useful` (`/repo/dyna/program.py` 1970-1995).

`leaf` stands for `is_leaf` (906-909), which looks at the coarse dependency graph: any function will do.  `none` is the
`AssertionError` of `gen_functor` or the end of the fuel of unification.  `prune_fast` (948) is the relation `Fast` of
`Prune.lean`.  Not modelled: the transformation history.
-/
import Verif.Prune

set_option linter.unusedSectionVars false
set_option linter.unusedSimpArgs false

namespace Verif
open Tm Heap
open Solver (noHeap)

namespace Magic
open Linearize (Sigs isBuiltin)
open Unfold (Prog isInput)
variable {W : Type}

/-- what is fixed during a run -/
structure Env (W : Type) where
  sig : Sigs
  f : Nat
  inputs : List Tm
  leaf : Tm → Bool

/-- `is_exogenous(x)` (528-530) -/
def exo (e : Env W) : Lit W → Option Bool
  | .val _ => some true
  | .sub t => if isBuiltin e.sig t then some true else isInput e.f t noHeap e.inputs

/-- `stage(a)` (917-923) -/
def stage (e : Env W) : Lit W → Option Nat
  | .val _ => some 0
  | .sub t =>
    if isBuiltin e.sig t then some 2
    else match exo e (.sub t) with
      | none => none
      | some b => some (if b || e.leaf t then 0 else 1)

/-- the keys of `min` (924-929) -/
abbrev Key := Nat × Nat × Nat × Nat

def key (e : Env W) (bound : Finset Nat) (a : Lit W) : Option Key :=
  match stage e a with
  | none => none
  | some s =>
    let av := Sem.litVars a
    let new := av \ bound
    some (if new = ∅ then 0 else 1, s, if av ∩ bound = ∅ ∧ bound ≠ ∅ then 1 else 0, new.card)

/-- comparison of tuples -/
def lt : Key → Key → Bool
  | (a, b, c, d), (a', b', c', d') => decide (a < a' ∨ a = a' ∧ (b < b' ∨ b = b' ∧ (c < c' ∨ c = c' ∧ d < d')))

/-- `min(ys, key=key)` (930): the position of the first of the best elements -/
def minPos (e : Env W) (bound : Finset Nat) : List (Lit W) → Option (Option (Key × Nat))
  | [] => some none
  | a :: ys => match key e bound a, minPos e bound ys with
    | some k, some none => some (some (k, 0))
    | some k, some (some (k', i)) => some (some (if lt k' k then (k', i + 1) else (k, 0)))
    | _, _ => none

/-- `reorder(ys, bound)` (911-934); the number is the length of `ys` -/
def reorderN (e : Env W) : Nat → List (Lit W) → Finset Nat → Option (List (Lit W))
  | 0, _, _ => some []
  | n + 1, ys, bound => match minPos e bound ys with
    | some (some (_, i)) => match ys[i]? with
      | some a => (reorderN e n (ys.eraseIdx i) (bound ∪ Sem.litVars a)).map fun o => a :: o
      | none => none
    | _ => none
def reorder (e : Env W) (ys : List (Lit W)) (bound : Finset Nat) : Option (List (Lit W)) := reorderN e ys.length ys bound

/-- `magic(t)` (937) -/
def magicT (m : Const) (t : Tm) : Tm := .app [.con m, t]

/-- the rules of line 939 -/
def outRules (e : Env W) (m : Const) : List (WRule W) → Option (List (WRule W))
  | [] => some []
  | r :: rs => match reorder e r.body ∅, outRules e m rs with
    | some b, some q => some (⟨magicT m r.head, b⟩ :: q)
    | _, _ => none

/-- the loop of lines 944-946; `pre` is `ordered[:j]` -/
def demands (e : Env W) (m : Const) (gH : Tm) : List (Lit W) → List (Lit W) → Option (List (WRule W))
  | _, [] => some []
  | pre, a :: l => match exo e a, demands e m gH (pre ++ [a]) l with
    | some b, some q => some (match b, a with
      | false, .sub t => ⟨magicT m t, .sub gH :: pre⟩ :: q
      | _, _ => q)
    | _, _ => none

/-- the loop of lines 940-946 -/
def ruleRules (e : Env W) (m : Const) : List (WRule W) → Option (List (WRule W))
  | [] => some []
  | r :: rs =>
    let gH := magicT m r.head
    match reorder e r.body (vars r.head) with
    | none => none
    | some o => match demands e m gH [] o, ruleRules e m rs with
      | some ds, some q => some (⟨r.head, .sub gH :: o⟩ :: ds ++ q)
      | _, _ => none

/-- the `n`-th name `$magicN` (term.py:18-21) -/
def magicName (n : Nat) : Const := .str ("$magic" ++ n.repr)

/-- `magic_templates` before pruning (936-946); `c` is the counter of `gen_functor` -/
def magic (e : Env W) (rules outputs : List (WRule W)) (c : Nat) : Option (List (WRule W) × Const) :=
  if magicName (c + 1) ∈ Hook.syms ⟨rules, e.inputs⟩ then none else
  match outRules e (magicName (c + 1)) outputs, ruleRules e (magicName (c + 1)) rules with
  | some a, some b => some (a ++ b, magicName (c + 1))
  | _, _ => none

/-- `magic_templates` (902-950): `q` is a possible result; `f` is the fuel for pruning -/
def Templates (e : Env W) (fv cv : Nat → Nat) (f k : Nat) (rules outputs : List (WRule W)) (c : Nat) (q : List (WRule W)) (m : Const) : Prop :=
  ∃ q', magic e rules outputs c = some (q', m) ∧ Prune.Fast e.sig fv cv f k q' e.inputs (outputs.map (·.head)) q

/-! ### `_useful` -/

/-- `u(x)` (1975) -/
def usefulT (t : Tm) : Tm := .app [.con (.str "$useful"), t]

/-- the rules of lines 1988-1992 for one rule -/
def useRules (sig : Sigs) (r : WRule W) : List (WRule W) := r.body.filterMap fun l => match l with
  | .val _ => none
  | .sub t => if isBuiltin sig t then none else some ⟨usefulT t, .sub (usefulT r.head) :: r.body⟩

/-- `_useful(output_type)` (1970-1994) -/
def useful (sig : Sigs) (rules outputs : List (WRule W)) : List (WRule W) :=
  rules ++ outputs.map (fun t => ⟨usefulT t.head, .sub t.head :: t.body⟩) ++ rules.flatMap (useRules sig)

end Magic
end Verif
