/-
The functor index and the generated names of `/repo/dyna/program.py`: `f2r` (1379-1392), `syms`
(1397-1409), `_add_rule` (463-469), `pop` (471-502), the in-place replacement in `_update_bucket`
(411-414), `gen_functor` (1411-1416), `_gen_functor` (1418-1426), and `gen_functor` of
`/repo/dyna/term.py` (18-22).

`syms` is a cached property that `_invalidate_caches` drops on every mutation (447-461), so it is
recomputed here.  Heads whose functor is a variable or that are constants are treated as errors.
-/
import Verif.RuleEq
import Verif.Dict

set_option linter.unusedSectionVars false
set_option linter.unusedSimpArgs false

namespace Verif
open Tm

/-- `x.fn` for a `Term` with a constant functor (term.py:340-342) -/
def hfn : Tm → Option Const
  | .app (.con c :: _) => some c
  | _ => none

namespace ProgIndex

/-- the part of a `Program` that matters for the index (program.py:101-114) -/
structure Prog where
  rules : List Rule
  cache : Option (Dict Const (List Nat))

/-- `d[c].append(i)` on a defaultdict of lists -/
def push (d : Dict Const (List Nat)) (c : Const) (i : Nat) : Dict Const (List Nat) :=
  d.set c ((d.get c).getD [] ++ [i])

/-- `syms` (1397-1409); a set, so only the elements matter -/
def syms (rules : List Rule) : List Const :=
  (rules.flatMap fun r => (r.head :: r.body).filterMap hfn).dedup

/-- The loop 1383-1390.  `ss` is `syms` in the order in which the set is iterated.  The last component
is the value of the local variable `f`, which the inner loop `for f in syms` overwrites (1390). -/
def build (ss : List Const) : List Rule → Nat → Dict Const (List Nat) → Const → Option (Dict Const (List Nat) × Const)
  | [], _, d, f => some (d, f)
  | r :: rs, i, d, f => match r.head with
    | .app (.con c :: _) => build ss rs (i + 1) (push d c i) f
    | .var _ => build ss rs (i + 1) (ss.foldl (fun d g => push d g i) d) (ss.getLast?.getD f)
    | _ => none

/-- `p.f2r(f)` (1379-1392): the program with its cache filled, and the rule numbers. -/
def f2r (ord : List Const → List Const) (p : Prog) (f : Const) : Option (Prog × List Nat) :=
  match p.cache with
  | some d => some (p, (d.get f).getD [])
  | none => match build (ord (syms p.rules)) p.rules 0 [] f with
    | none => none
    | some (d, f) => some ({ p with cache := some d }, (d.get f).getD [])

/-- `p._add_rule(r)` (463-469); `Var` has no attribute `fn` -/
def addRule (p : Prog) (r : Rule) : Option Prog :=
  match p.cache with
  | none => some ⟨p.rules ++ [r], none⟩
  | some d => match r.head with
    | .app (.con c :: _) => some ⟨p.rules ++ [r], some (push d c p.rules.length)⟩
    | _ => none

/-- `p.pop(i)` (471-502); `none` is `IndexError` -/
def pop (p : Prog) (i : Nat) : Option Prog :=
  if i < p.rules.length then some ⟨p.rules.eraseIdx i, none⟩ else none

/-- `self.rules[i] = Rule(s.head, ...)` (413) -/
def setBody (p : Prog) (i : Nat) (b : List Tm) : Option Prog :=
  match p.rules[i]? with
  | none => none
  | some s => some { p with rules := p.rules.set i ⟨s.head, b⟩ }

inductive Op
  | add (r : Rule)
  | pop (i : Nat)
  | setBody (i : Nat) (b : List Tm)
  | query (f : Const)

def step (ord : List Const → List Const) (p : Prog) : Op → Option Prog
  | .add r => addRule p r
  | .pop i => pop p i
  | .setBody i b => setBody p i b
  | .query f => (f2r ord p f).map (·.1)

/-- a history of operations on a program built from a list of rules -/
def run (ord : List Const → List Const) : Prog → List Op → Option Prog
  | p, [] => some p
  | p, op :: ops => match step ord p op with
    | none => none
    | some p => run ord p ops

end ProgIndex

/-! ### Generated names -/
namespace GenFunctor

/-- `gen_functor(prefix)` (term.py:18-22) with the counter `gen_functor.i` -/
def genGlobal (i : Nat) (pre : String) : Nat × String := (i + 1, pre ++ (i + 1).repr)

/-- `p.gen_functor(prefix)` (program.py:1411-1416); inner `none` is the `AssertionError` -/
def genMethod (i : Nat) (syms : List String) (pre : String) : Nat × Option String :=
  let r := genGlobal i pre
  (r.1, if r.2 ∈ syms then none else some r.2)

/-- The sequence of results of calls `p.gen_functor(prefix)` on programs with symbols `syms`; stops at
an assertion failure. -/
def genRun : Nat → List (List String × String) → List String
  | _, [] => []
  | i, (syms, pre) :: cs => match genMethod i syms pre with
    | (_, none) => []
    | (i', some f) => f :: genRun i' cs

/-- the loop of `_gen_functor` (1418-1426) -/
def genLocalGo (syms : List String) (pre : String) : Nat → Nat → String → Option String
  | 0, _, _ => none
  | fuel + 1, c, f => if f ∈ syms then genLocalGo syms pre fuel (c + 1) (pre ++ (c + 1).repr) else some f

/-- `p._gen_functor(prefix)` -/
def genLocal (syms : List String) (pre : String) (fuel : Nat) : Option String := genLocalGo syms pre fuel 1 pre

end GenFunctor
end Verif
