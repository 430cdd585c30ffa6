/-
Memoized methods of programs: `instance_cache` (`/repo/dyna/util/util.py` 464-486), the mutators of
`/repo/dyna/program.py` that touch `self.rules` (`_update_bucket` 395-415, `_add_rule` 463-469,
`pop` 471-502) or the declarations (`set_input_types` 118-122, `set_output_types` 124-128),
`_invalidate_caches` (442-461), and `FrozenBag` (`util.py` 103-105).
-/
import Verif.Dict
import Mathlib.Data.Multiset.Count

set_option linter.unusedSectionVars false
set_option linter.unusedSimpArgs false

namespace Verif
namespace Memo

/-- A call as written in the source: the decorated function, positional arguments, keyword arguments. -/
structure Call (F A : Type) where
  func : F
  args : List A
  kwargs : List (String × A)
deriving DecidableEq

variable {F A V : Type} [DecidableEq F] [DecidableEq A]

/-- insertion into a list of keyword arguments sorted by name -/
def insertKw (p : String × A) : List (String × A) → List (String × A)
  | [] => [p]
  | q :: l => if p.1 ≤ q.1 then p :: q :: l else q :: insertKw p l

/-- `sorted(kwargs.items())` (util.py:481); names are distinct, so values are never compared -/
def sortKw : List (String × A) → List (String × A)
  | [] => []
  | p :: l => insertKw p (sortKw l)

/-- the cache key (util.py:481) -/
def key (c : Call F A) : Call F A := ⟨c.func, c.args, sortKw c.kwargs⟩

/-- The body of a method: it may call other memoized methods of the same object before it returns
(e.g. `prune_bottom_up` calls `prune`, program.py:1799-1801). -/
inductive Comp (F A V : Type)
  | ret (v : V)
  | call (c : Call F A) (next : V → Comp F A V)

/-- Run a body, memoized calls going through `wrapper` (util.py:479-484).  `none`: out of fuel. -/
def run (impl : Call F A → Comp F A V) : Nat → Comp F A V → Dict (Call F A) V → Option (V × Dict (Call F A) V)
  | _, .ret v, d => some (v, d)
  | 0, .call _ _, _ => none
  | f + 1, .call c next, d =>
    match d.get (key c) with
    | some v => run impl f (next v) d                                    -- 485
    | none => match run impl f (impl c) d with                           -- 486
      | none => none
      | some (v, d') => run impl f (next v) (d'.set (key c) v)

/-- what the memoized methods can see of a program -/
structure Prog (R T : Type) where
  rules : List R
  inputs : T
  outputs : T

/-- the program and `self._caches` -/
structure St (R T F A V : Type) where
  prog : Prog R T
  cache : Dict (Call F A) V

/-- operations on a program object -/
inductive Op (R T F A : Type)
  | call (c : Call F A)
  | add (r : R)             -- `_add_rule` (463-469)
  | replace (i : Nat) (r : R)   -- line 413 of `_update_bucket`
  | pop (i : Nat)
  | setInputs (t : T)
  | setOutputs (t : T)

/-- one operation; a call also gives a result -/
def step {R T : Type} (impl : Prog R T → Call F A → Comp F A V) (f : Nat) (s : St R T F A V) :
    Op R T F A → Option (St R T F A V × Option V)
  | .call c => match run (impl s.prog) f (.call c .ret) s.cache with
    | none => none
    | some (v, d) => some (⟨s.prog, d⟩, some v)
  | .add r => some (⟨{ s.prog with rules := s.prog.rules ++ [r] }, []⟩, none)             -- 465, 468
  | .replace i r => some (⟨{ s.prog with rules := s.prog.rules.set i r }, []⟩, none)      -- 413-414
  | .pop i => some (⟨{ s.prog with rules := s.prog.rules.eraseIdx i }, []⟩, none)         -- 473, 501
  | .setInputs t => some (⟨{ s.prog with inputs := t }, s.cache⟩, none)                   -- 121
  | .setOutputs t => some (⟨{ s.prog with outputs := t }, s.cache⟩, none)                 -- 127

/-- a history of operations with the results of its calls -/
def steps {R T : Type} (impl : Prog R T → Call F A → Comp F A V) (f : Nat) : St R T F A V → List (Op R T F A) →
    Option (St R T F A V × List (Option V))
  | s, [] => some (s, [])
  | s, o :: os => match step impl f s o with
    | none => none
    | some (s', v) => match steps impl f s' os with
      | none => none
      | some (s'', vs) => some (s'', v :: vs)

/-- `Counter(elements)` as a dict, then `.items()` as a set (util.py:103-105) -/
def counter {α : Type} [DecidableEq α] : List α → Dict α Nat → Dict α Nat
  | [], d => d
  | x :: xs, d => counter xs (d.set x ((d.get x).getD 0 + 1))

/-- `FrozenBag(elements)` (util.py:104-105); frozensets are equal iff they have the same members -/
def frozenBag {α : Type} [DecidableEq α] (l : List α) : Set (α × Nat) := {p | p ∈ (counter l [])}

end Memo
end Verif
