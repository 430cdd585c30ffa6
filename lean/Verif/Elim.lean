/-
`LinearRuleElimination` (`/repo/dyna/transform/rule_elimination.py` 22-104), with `Program.__setitem__`
(`/repo/dyna/program.py` 1240-1252) on the stream built there (`/repo/dyna/term.py` 1057-1172), and
`Program.elim` (program.py 1531-1532).

`inf` stands for `Semiring.multiple(inf)`, `dead` for the zero test of `constant_folding_rhs`, `cv` numbers the
variables of canonical terms.  Fresh variables are numbered from the allocation mark on; a rule added to the
program moves it by the number of its variables, even if the rule is merged or dropped.
The stream `I(s.head, b, one)` unifies the two terms again; as they are equal under the current bindings it
yields once and binds nothing, so the model leaves it out and keeps the factor `one`.
-/
import Verif.Unfold
import Verif.Linearize
import Verif.ProgUpdate

set_option linter.unusedSectionVars false
set_option linter.unusedSimpArgs false

namespace Verif
open Tm Heap
open Solver (noHeap)

namespace Elim
open Unfold (Prog freshR derefR isInput assertion)
open ProgUpdate (St update)
variable {W : Type} [CommSemiring W] [DecidableEq W]

/-- the new program, the allocation mark, and `count` -/
structure ES (W : Type) where
  p : St W
  k : Nat
  n : Nat

/-- `ValueError` in `_update_bucket` -/
abbrev valueError : Sig := .exc 7

/-- `new_program.append(r)` (program.py:439-440) -/
def put (cv : Nat → Nat) (dead : W → Bool) (st : ES W) (r : WRule W) : Option (ES W) :=
  (update cv id dead st.k st.p r).map fun p => ⟨p, st.k + (Sem.rvars r).card, st.n⟩

/-- the rule made by `__setitem__` (program.py:1246-1250): an infinite multiplicity if one of the variables `was` is lost -/
def setItem (inf : W) (t : WRule W) (was : Finset Nat) : WRule W :=
  if was ⊆ Sem.rvars t then t else ⟨t.head, t.body ++ [.val inf]⟩

/-- the body of the loop over unifiers (rule_elimination.py:56-62), for `head += L * q * R` -/
def elimAt (f : Nat) (inf : W) (cv : Nat → Nat) (dead : W → Bool) (s : WRule W) (head : Tm) (L : List (Lit W)) (q : Tm) (R : List (Lit W)) :
    Body (ES W) := fun h st =>
  match derefR h f ⟨head, L ++ .val 1 :: (s.body ++ R)⟩, derefR h f (⟨s.head, [.sub q]⟩ : WRule W) with
  | some t, some g =>
    match put cv dead { st with n := st.n + 1 } (setItem inf t (Sem.rvars t ∪ Sem.rvars g)) with
    | some st' => some (h, st', .done)
    | none => some (h, st, valueError)
  | _, _ => none

/-- the loop over the subgoals (54-62); `L` are the ones already seen -/
def elimBody (f : Nat) (inf : W) (cv : Nat → Nat) (dead : W → Bool) (s : WRule W) (head : Tm) :
    List (Lit W) → List (Lit W) → ES W → Option (ES W × Sig)
  | _, [], st => some (st, .done)
  | L, .val c :: R, st => elimBody f inf cv dead s head (L ++ [.val c]) R st
  | L, .sub q :: R, st =>
    match unifyF f s.head q (elimAt f inf cv dead s head L q R) noHeap st with
    | none => none
    | some (_, st, .done) => elimBody f inf cv dead s head (L ++ [.sub q]) R st
    | some (_, st, g) => some (st, g)

/-- the loop over the rules (51-102); the flag marks the rule to be eliminated -/
def elimRules (f : Nat) (inf : W) (cv : Nat → Nat) (dead : W → Bool) (s : WRule W) : List (WRule W × Bool) → ES W → Option (ES W × Sig)
  | [], st => some (st, .done)
  | (r, isS) :: rs, st =>
    let rk := if isS then freshR st.k r else (r, st.k)                                  -- 52
    match elimBody f inf cv dead s rk.1.head [] rk.1.body ⟨st.p, rk.2, 0⟩ with
    | none => none
    | some (st, .done) =>
      if st.n > 1 then some (st, assertion)                                             -- 96-99
      else if isS then elimRules f inf cv dead s rs st                                  -- 101
      else match put cv dead st r with                                                  -- 102
        | some st => elimRules f inf cv dead s rs st
        | none => some (st, valueError)
    | some (st, g) => some (st, g)

/-- `LinearRuleElimination(program, i)`: the new program and what was raised; `none` means that fuel ran out.  `outs` are
the heads of the declared outputs. -/
def linElim (f : Nat) (inf : W) (cv : Nat → Nat) (dead : W → Bool) (outs : Option (List Tm)) (k : Nat) (rules : List (WRule W)) (i : Nat) :
    Option (ES W × Sig) :=
  let st : ES W := ⟨⟨[], none⟩, k, 0⟩
  match rules[i]? with
  | none => some (st, assertion)
  | some s =>
    match isInput f s.head noHeap (outs.getD []) with                                   -- 42-44; is_output: program.py:517-519
    | none => none
    | some true => some (st, assertion)
    | some false => elimRules f inf cv dead s (rules.zipIdx.map fun rj => (rj.1, rj.2 == i)) st

/-- `elim(i)` (program.py:1531-1532); `none` inside: `linearize` raised an exception -/
def elim (f : Nat) (inf : W) (cv : Nat → Nat) (dead : W → Bool) (sig : Linearize.Sigs) (outs : Option (List Tm)) (p : Prog W) (k c i : Nat) :
    Option (Option (ES W × Sig)) :=
  match p.rules[i]? with
  | none => some none
  | some s => match Linearize.linearize f sig p k c (some s.head) with
    | none => none
    | some none => some none
    | some (some st) => (linElim f inf cv dead outs st.k st.rules i).map some

end Elim
end Verif
