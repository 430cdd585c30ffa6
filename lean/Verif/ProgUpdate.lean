/-
Rules with semiring values, constant folding of one rule, and incremental update of a program:
`/repo/dyna/program.py` `_update_bucket` (395-415), `_make_buckets` (420-428), `update` (431-437),
`pop` (471-502), `constant_folding_rhs` (1439-1454), `get_const_rhs` (1456-1463).

`dead C` stands for `Semiring.metric(C, zero) <= 1e-7` (1449).  Terms have no bound variables.
-/
import Verif.TermSets
import Verif.Dict
import Mathlib.Algebra.BigOperators.Group.List.Basic
import Mathlib.Algebra.Ring.Defs

set_option linter.unusedSectionVars false
set_option linter.unusedSimpArgs false

namespace Verif
open Tm

/-- an element of a rule body: a constant (a semiring value; `is_const`, rule.py:18-19) or a subgoal -/
inductive Lit (K : Type)
  | val (k : K)
  | sub (t : Tm)
deriving DecidableEq

/-- `Rule` (rule.py:22-37) with semiring values in the body -/
structure WRule (K : Type) where
  head : Tm
  body : List (Lit K)
deriving DecidableEq

namespace WRule
variable {K : Type} [CommSemiring K] [DecidableEq K]

/-- constants of a body, in order -/
def vals (b : List (Lit K)) : List K := b.filterMap fun | .val k => some k | .sub _ => none
/-- non-constant subgoals of a body, in order -/
def subs (b : List (Lit K)) : List Tm := b.filterMap fun | .val _ => none | .sub t => some t

/-- `constant_folding_rhs(r)` (program.py:1439-1454): the loop 1443-1447 multiplies the constants from
the left, starting from `one`. -/
def fold (dead : K → Bool) (r : WRule K) : Option (WRule K) :=
  let C := (vals r.body).foldl (· * ·) 1
  let xs := (subs r.body).map .sub
  if dead C then none
  else if C = 1 ∧ xs.length > 0 then some ⟨r.head, xs⟩
  else some ⟨r.head, .val C :: xs⟩

/-- `get_const_rhs(r)` (program.py:1456-1463) -/
def constRhs (r : WRule K) : Option K :=
  match r.body with
  | [] => some 1
  | [.val k] => some k
  | _ => none

/-- `fresh` on a subgoal list, threading the memo; values are left alone -/
def renB (gen : Nat → Nat) : List (Lit K) → List Nat → List (Lit K) × List Nat
  | [], vs => ([], vs)
  | .val k :: b, vs => let r := renB gen b vs; (.val k :: r.1, r.2)
  | .sub t :: b, vs =>
    let t' := ren gen t vs
    let r := renB gen b t'.2
    (.sub t'.1 :: r.1, r.2)

/-- `fresh(r)` (term.py:597-599) -/
def fresh (fv : Nat → Nat) (k : Nat) (r : WRule K) : WRule K :=
  let h := ren (fun i => fv (k + i)) r.head []
  ⟨h.1, (renB (fun i => fv (k + i)) r.body h.2).1⟩

end WRule

namespace ProgUpdate
variable {K : Type} [CommSemiring K] [DecidableEq K]

/-- rules and `_buckets` of a program -/
structure St (K : Type) where
  rules : List (WRule K)
  buckets : Option (Dict Tm Nat)

/-- the loop of `_make_buckets` (420-428) -/
def makeGo (cv : Nat → Nat) : List (WRule K) → Nat → Dict Tm Nat → Dict Tm Nat
  | [], _, d => d
  | r :: rs, i, d =>
    match r.constRhs with
    | none => makeGo cv rs (i + 1) d
    | some _ => match d.get (canonP cv r.head) with
      | some _ => makeGo cv rs (i + 1) d
      | none => makeGo cv rs (i + 1) (d.set (canonP cv r.head) i)

/-- `_update_bucket(r)` (395-415).  Outer `none`: `ValueError` of the unpacking `[S] = s.body` (412).
The Boolean tells whether the result of the method is not `None`. -/
def updateBucket (cv fv : Nat → Nat) (k : Nat) (rules : List (WRule K)) (d : Dict Tm Nat) (r : WRule K) :
    Option (St K × Bool) :=
  match r.constRhs with
  | none => some (⟨rules, some d⟩, false)                                       -- 399-400
  | some C =>
    match d.get (canonP cv r.head) with
    | none => some (⟨rules ++ [r.fresh fv k], some (d.set (canonP cv r.head) rules.length)⟩, true)
    | some i => match rules[i]? with
      | some ⟨h, [.val S]⟩ => some (⟨rules.set i ⟨h, [.val (S + C)]⟩, some d⟩, true)   -- 411-415
      | _ => none

/-- the property `buckets`, computed at first use (396, 420-428) -/
def getBuckets (cv : Nat → Nat) (p : St K) : Dict Tm Nat :=
  match p.buckets with
  | some d => d
  | none => makeGo cv p.rules 0 []

/-- `update(head, *body)` (431-437) -/
def update (cv fv : Nat → Nat) (dead : K → Bool) (k : Nat) (p : St K) (r : WRule K) : Option (St K) :=
  match r.fold dead with
  | none => some p                                                              -- 433: nothing to add
  | some r =>
    match updateBucket cv fv k p.rules (getBuckets cv p) r with
    | none => none
    | some (p', true) => some p'
    | some (p', false) => some ⟨p'.rules ++ [r.fresh fv k], p'.buckets⟩

/-- `pop(i)` (471-502) -/
def pop (p : St K) (i : Nat) : St K := ⟨p.rules.eraseIdx i, none⟩

/-- a sequence of updates; every one allocates its fresh variables from its own mark -/
def updates (cv fv : Nat → Nat) (dead : K → Bool) : St K → List (Nat × WRule K) → Option (St K)
  | p, [] => some p
  | p, (k, r) :: rs => match update cv fv dead k p r with
    | none => none
    | some p => updates cv fv dead p rs

end ProgUpdate
end Verif
