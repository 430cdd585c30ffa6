/-
`Program.run_builtins` and `Program._run_builtins` (`/repo/dyna/program.py` 1478-1506): the builtins in the bodies of the rules are
run, rule by rule, until nothing changes.

On top of `Program.lookup` (`Verif.Unfold`) and `Program.update` (`Verif.ProgUpdate`).  While the solutions of a body are enumerated,
the rules made from them are appended to a program that the enumeration does not look at; here they are collected first and
appended afterwards.  Not modelled: bare variables as subgoals and the builtins `is` and `$not_matches` (signal
`unsupported`), and `has_builtins=False`.
-/
import Verif.Unfold
import Verif.ProgUpdate
import Verif.RuleEq

set_option linter.unusedSectionVars false
set_option linter.unusedSimpArgs false

namespace Verif
open Tm Heap
open Solver (noHeap forEach)
open Unfold (Ops Prog US lookup derefR isInput unsupported freshR)

namespace RunB
variable {W : Type}

/-- `is_builtin(x)` (builtin.py:79-95) for a subgoal that is not a variable -/
def isB (ops : Ops) : Tm → Bool
  | .app (.con c :: as) =>
    (as.length == 2 && (c == .str "=" || (ops c).isSome || c == .str "is" || c == .str "$not_matches")) ||
    (as.length == 1 && (c == .str "$free" || c == .str "$bound"))
  | _ => false

/-- `ValueError` out of `update` (see `ProgUpdate.update`) -/
abbrev valueError : Sig := .exc 7

/-- what does not change: the comparisons, the names of variables in canonical forms, the test for zero and how rules are compared -/
structure Env (W S : Type) where
  ops : Ops
  cv : Nat → Nat
  dead : W → Bool
  eq : RuleOps (WRule W) S

section
variable [CommSemiring W] [DecidableEq W] {S : Type} [DecidableEq S]

/-- `for ys in self._run_builtins(b): k(ys)` (1495-1506); `lookup_vals` (1259-1266) is the body of each rule that `lookup` yields, and
`lookup` on an input yields the subgoal itself (1305-1311) -/
def runB (f : Nat) (ops : Ops) (p : Prog W) : List (Lit W) → (List (Lit W) → Body (US W)) → Body (US W)
  | [], k, h, s => k [] h s                                                             -- 1496-1498
  | .val c :: b, k, h, s => runB f ops p b (fun vs => k (.val c :: vs)) h s             -- 1505-1506
  | .sub (.var _) :: _, _, h, s => some (h, s, unsupported)
  | .sub q :: b, k, h, s =>
    if isB ops q then
      match isInput f q h p.inputs with
      | none => none
      | some true => runB f ops p b (fun vs => k (.sub q :: vs)) h s
      | some false => lookup f ops p.rules q (fun r _ => runB f ops p b (fun vs => k (r.body ++ vs))) h s   -- 1501-1503
    else runB f ops p b (fun vs => k (.sub q :: vs)) h s                                -- 1505-1506

/-- `Rule(r.head, *ys)` (1489) under the bindings of the moment -/
def push (f : Nat) (head : Tm) (ys : List (Lit W)) : Body (US W) := fun h s =>
  match derefR h f ⟨head, ys⟩ with
  | none => none
  | some t => some (h, ⟨s.out ++ [(t, none)], s.k⟩, .done)

/-- `new.append(r)` (1489) for one rule after the other -/
def addAll (cv : Nat → Nat) (dead : W → Bool) : ProgUpdate.St W → Nat → List (WRule W) → Option (ProgUpdate.St W × Nat)
  | p, k, [] => some (p, k)
  | p, k, r :: rs => match ProgUpdate.update cv id dead k p r with
    | none => none
    | some p => addAll cv dead p (freshR k r).2 rs

/-- one turn of the loop (1486-1489): the rules of `new` and the allocation mark -/
def pass (f : Nat) (e : Env W S) (p : Prog W) (k : Nat) (old : List (WRule W)) : Option (List (WRule W) × Nat × Sig) :=
  match forEach old (fun r => runB f e.ops p r.body (push f r.head)) noHeap ⟨[], k⟩ with
  | none => none
  | some (_, s, .done) => match addAll e.cv e.dead ⟨[], none⟩ s.k (s.out.map Prod.fst) with
    | none => some ([], s.k, valueError)
    | some (q, k') => some (q.rules, k', .done)
  | some (_, s, g) => some ([], s.k, g)

/-- `while True` (1485-1491), at most so many turns; `none` when they do not suffice -/
def loop (f : Nat) (e : Env W S) (p : Prog W) : Nat → List (WRule W) → Nat → Option (List (WRule W) × Nat × Sig)
  | 0, _, _ => none
  | n + 1, old, k => match pass f e p k old with
    | none => none
    | some (new, k', .done) => if e.eq.progEq false old new then some (old, k', .done) else loop f e p n new k'
    | some r => some r

/-- `for r0 in self` (1480-1492) -/
def rules (f : Nat) (e : Env W S) (p : Prog W) (n : Nat) : List (WRule W) → Nat → List (WRule W) → Option (List (WRule W) × Nat × Sig)
  | [], k, R => some (R, k, .done)
  | r0 :: rs, k, R => match loop f e p n [r0] k with
    | none => none
    | some (old, k', .done) => rules f e p n rs k' (R ++ old)
    | some r => some r

/-- `p.run_builtins()` (1478-1493): the rules of the result -/
def runBuiltins (f : Nat) (e : Env W S) (p : Prog W) (n k : Nat) : Option (List (WRule W) × Nat × Sig) := rules f e p n p.rules k []

end
end RunB
end Verif
