/-
The two-pass evaluator `Program.scc_solver` (program.py:952-1031).

Both passes use the ground agenda solver (`Verif.Solver`): pass 1 on a Boolean program `rules1` (the booleanized
`bound_program + data`), pass 2 on `rules` (`p + data`, where `p` has been linearized) with a `BucketQueue`, which
pops an item of least priority (C21).
`none` stands for an exception or a call that does not return.
Simplified: `lookup` tries all rules instead of those with the same functor (C18), without renaming them (the
canonical variables `cv i` do not occur in programs; that index misses rules headed by a variable, so the theorems exclude
outputs declared as a bare variable); subgoals are not builtins (`=` and comparisons are); the bodies of output
declarations hold no constants; `is_exogenous` is asked about the dereferenced subgoal; no time limits (an interrupted pass 1 is flagged by the code and gives no guarantee).
-/
import Verif.LinSolve
import Verif.Unfold
import Verif.Tarjan
import Verif.TermOps

set_option linter.unusedSectionVars false
set_option linter.unusedSimpArgs false

namespace Verif
namespace SccSolver
open Tm Heap
open Solver (joinF forEach noHeap)
open Unfold (isInput)
open Sem (TV)

/-- what does not change during a call: the Boolean program, the heads of the inputs, the declared outputs, the
interned variables of `canonicalize`, and the fuel -/
structure Cfg where
  rules1 : List (SRule TV)
  inputs : List Tm
  outs : List (SRule TV)
  cv : Nat → Nat
  f : Nat

/-- the inner loop of `deps` (995-997) at one yield of `ground_out_rule` -/
def addDeps (c : Cfg) : List (BLit TV) → Body (List Tm)
  | [], h, out => some (h, out, .done)
  | .sub b :: bs, h, out => match derefF h c.f b with
    | none => none
    | some b' => match isInput c.f b' noHeap c.inputs with
      | none => none
      | some true => addDeps c bs h out
      | some false => match canonF c.cv h c.f b with
        | none => none
        | some t => addDeps c bs h (out ++ [t])
  | _ :: bs, h, out => addDeps c bs h out                -- constants and builtins are exogenous

/-- the loop of `deps` (993-997) over the rules found by `lookup` -/
def depsRules (c : Cfg) (chart : Dict Tm TV) (cand : Tm → List Tm) (x : Tm) : Option (List Tm) :=
  match forEach c.rules1 (fun r => unifyF c.f r.head x (joinF c.f chart cand r.body [] fun _ => addDeps c r.body)) noHeap [] with
  | some (_, out, .done) => some out
  | _ => none

/-- `deps(x)` (988-998).  `lookup` (program.py:1273-1357) answers a term that overlaps an input with the rule `x += x` alone, whose
body is exogenous, so that nothing is recorded; a constant is no rule, which raises. -/
def deps (c : Cfg) (chart : Dict Tm TV) (cand : Tm → List Tm) : Tm → Option (List Tm)
  | .con _ => none
  | .var n => depsRules c chart cand (.var n)
  | .app l => match isInput c.f (.app l) noHeap c.inputs with
    | none => none
    | some true => some []
    | some false => depsRules c chart cand (.app l)

/-- the list `outputs` (1000-1003) -/
def outputs (c : Cfg) (chart : Dict Tm TV) (cand : Tm → List Tm) : Option (List Tm) :=
  match forEach c.outs (fun o => joinF c.f chart cand o.body [] fun _ h out =>
      (canonF c.cv h c.f o.head).map fun t => (h, out ++ [t], .done)) noHeap [] with
  | some (_, out, .done) => some out
  | _ => none

/-- `tarjan(deps, outputs)` (1004); an exception of `deps` is one of the call -/
def sccs (c : Cfg) (chart : Dict Tm TV) (cand : Tm → List Tm) : Option (List (List Tm)) :=
  match outputs c chart cand with
  | none => none
  | some os => match Tarjan.tarjan (fun x => (deps c chart cand x).getD []) c.f os with
    | none => none
    | some L => if L.flatten.all fun x => (deps c chart cand x).isSome then some L else none

/-- `support_map` (1004, 1010): every member of component number `i` is mapped to `i + 1` -/
def supportMap (L : List (List Tm)) : Dict Tm Int :=
  (L.zipIdx.flatMap fun p => p.1.map fun x => (x, (p.2 : Int) + 1)).foldl (fun d e => d.set e.1 e.2) []

/-- the loop over `support.lookup(it)` (1022-1026) -/
def best (f : Nat) (x : Tm) : Dict Tm Int → Option Int → Option (Option Int)
  | [], b => some b
  | (k, v) :: d, b => match unifiesF f k x noHeap with
    | none => none
    | some true => best f x d (some (match b with
      | none => v
      | some u => min u v))
    | some false => best f x d b

/-- `priority(it)` (1015-1026); the inner `none` is Python's `None` -/
def priority (c : Cfg) (M : Dict Tm Int) : Tm → Option (Option Int)
  | .app l => match isInput c.f (.app l) noHeap c.inputs with
    | none => none
    | some true => some (some 0)
    | some false => match M.get (.app l) with
      | some v => some (some v)
      | none => best c.f (.app l) M none
  | _ => some (some 0)

/-- `s2.priority`, once it is known not to run out of fuel on the items of pass 1 -/
def prio (c : Cfg) (M : Dict Tm Int) (x : Tm) : Option Int := (priority c M x).getD none

/-- what is left of pass 1: the map computed from the chart of `s1` -/
def support (c : Cfg) (chart : Dict Tm TV) (cand : Tm → List Tm) : Option (Dict Tm Int) :=
  match sccs c chart cand with
  | none => none
  | some L =>
    let M := supportMap L
    if (Dict.keys chart).all fun x => (priority c M x).isSome then some M else none

/-- the Boolean solver of pass 1 (985) -/
def cfg1 (rules1 : List (SRule TV)) : Solver.Cfg TV := ⟨rules1, none, fun a b => a == b, 1⟩

variable {K : Type} [Semiring K]

/-- `s2.agenda.popitem()` on a `BucketQueue` (bucket_queue.py:75-87), then one iteration of the loop of the solver; `p` is
the priority of the popped item -/
def PopMin (g : Solver.Cfg K) (p : Int) (st st' : Solver.St K) : Prop :=
  ∃ f cand a, Solver.LawfulCand cand ∧ st.chg.agenda.get a = some p ∧ (∀ b q, st.chg.agenda.get b = some q → p ≤ q) ∧
    Solver.popF g f cand st a = some (st', .done)

/-- the agenda loop of pass 2 -/
inductive Pops (g : Solver.Cfg K) : Solver.St K → Solver.St K → Prop
  | refl (st) : Pops g st st
  | step {st st1 st' p} : Pops g st st1 → PopMin g p st1 st' → Pops g st st'

/-- pass 2 (1013-1029): initialize all rules, then empty the queue -/
def Pass2 (g : Solver.Cfg K) (st : Solver.St K) : Prop :=
  ∃ f cand st1, Solver.LawfulCand cand ∧ Solver.initAll g f cand g.rules 0 Solver.St.empty = some (st1, .done) ∧
    Pops g st1 st ∧ st.chg.agenda = []

/-- the configuration of `s2` -/
def cfg2 (c : Cfg) (M : Dict Tm Int) (rules : List (SRule K)) (approx : K → K → Bool) (inf : K) : Solver.Cfg K :=
  ⟨rules, some (prio c M), approx, inf⟩

/-- a complete call of `scc_solver`: `st1` and `st` are the final states of the two solvers -/
def SccSolver (c : Cfg) (rules : List (SRule K)) (approx : K → K → Bool) (inf : K) (st1 : Solver.St TV) (M : Dict Tm Int)
    (st : Solver.St K) : Prop :=
  Solver.ForwardChaining (cfg1 c.rules1) Solver.St.empty st1 ∧
    (∃ cand, Solver.LawfulCand cand ∧ support c st1.chart (cand st1.chart) = some M) ∧
    Pass2 (cfg2 c M rules approx inf) st

end SccSolver
end Verif
