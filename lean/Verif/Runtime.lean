/-
Size and running-time bounds from simple types: `/repo/dyna/analyze/runtime.py` (`type_bound`, `stype_bound`,
`SizeBounds`, `Runtime`) and `TypeAnalyzer.size` / `runtime` (`/repo/dyna/analyze/types.py` 262-264, 273-275).

The code builds symbolic expressions in one symbol per functor of a constraint (`Symbol(c.fn)`, runtime.py:15-48);
here the expressions are evaluated: `size` gives a value to every symbol, sums, products and minima are those of
the natural numbers with infinity (`np.inf`).  sympy itself (simplification, `Min`) is not modelled.
`rewrites(R)` is a parameter: a type, `None`, an exception, or no result (`Rewrites.Res`).
Sets (`frozenset`) are lists without duplicates.  `Subst.__call__` (`/repo/dyna/term.py` 448-460) hands a
`frozenset` back unchanged, so the calls `subst1(suffix - {passenger})`, `subst1(C2)`, `subst1(V)`
(runtime.py:213-215) do nothing, and they do nothing here; `subst1(Rule(...))` (185, 235) does apply.
The caches and the debugging output are left out.
-/
import Verif.TypeAn
import Mathlib.Data.ENat.Basic

set_option linter.unusedSectionVars false
set_option linter.unusedSimpArgs false

namespace Verif
namespace Runtime
open Tm Heap
open Rewrites (Ty Res)
open Solver (noHeap)

/-- What the bounds depend on: the chart of the analysis, `is_builtin`, `S.rewrites`, the values of the symbols,
and `fast_mode` (runtime.py:70-73, 136-138). -/
structure Cfg where
  chart : List Ty
  builtin : Tm → Bool
  simp : Ty → Res
  size : Option Const → ℕ∞
  fast : Bool

/-- `is_builtin` (builtin.py:85-90) for the given signatures -/
def isBuiltin (sigs : List (Const × Nat)) : Tm → Bool
  | .var _ => true
  | .app (.con c :: as) => sigs.contains (c, as.length)
  | _ => false

/-- `lookup_bounds(c, V)` (runtime.py:75-91) -/
def lookupBounds (g : Cfg) (c : Tm) (V : Finset Nat) : List ℕ∞ :=
  if vars c ⊆ V then [1]                                                                -- 80-82
  else if g.builtin c then []                                                           -- 89
  else [g.size (hfn c)]                                                                 -- 91

/-- `_stype_bound(V, remaining)` (runtime.py:94-126); the number is that of the remaining constraints -/
def stb (g : Cfg) (hd : Tm) : Nat → Finset Nat → List Tm → ℕ∞
  | _, V, [] => if vars hd ⊆ V then 1 else ⊤                                            -- 101-109
  | 0, _, _ :: _ => ⊤
  | n + 1, V, cs => cs.foldl (fun best c =>                                             -- 111-126
      (lookupBounds g c V).foldl (fun best cost => min best (cost * stb g hd n (V ∪ vars c) (cs.erase c))) best) ⊤

/-- `stype_bound(S, s, V0, remaining0)` (runtime.py:64-66) -/
def stypeBound (g : Cfg) (hd : Tm) (V : Finset Nat) (cs : List Tm) : ℕ∞ := stb g hd cs.dedup.length V cs.dedup

/-- `TypeAnalyzer.size()` (types.py:273-275) -/
def chartSize (g : Cfg) : ℕ∞ := (g.chart.map fun t => stypeBound g t.1 ∅ t.2).sum

/-- one type `t` of the intersection in `type_bound(S, stype, V)` (runtime.py:58-59): while `t.head` and the head
of the query are unified, the variables of `t` are those of the dereferenced type -/
def boundAt (g : Cfg) (f : Nat) (V : Finset Nat) (q : Tm) (t : Ty) : Body ℕ∞ :=
  unifyF f t.1 q fun h s => match TypeAn.derefT h f t with
    | none => none
    | some t => some (h, s + stypeBound g t.1 V t.2, .done)

/-- `type_bound(S, stype, V)` (runtime.py:51-60), given `T = S.intersect(q)`; `q` is the head of `stype` -/
def typeBound (g : Cfg) (f : Nat) (V : Finset Nat) (q : Tm) (T : List Ty) : Option ℕ∞ :=
  match Solver.forEach T (boundAt g f V q) noHeap 0 with
  | some (_, s, _) => some s
  | none => none

/-- the types of a chart that unify with `b` (runtime.py:232-235): the substitution, and the type made of `b` and
the constraints, both under the substitution -/
def matches_ (f : Nat) (b : Tm) : List Ty → Option (List (Heap × Ty))
  | [] => some []
  | s :: ss => match Subst.mguF f noHeap s.1 b with                                     -- 233
    | none => none
    | some none => matches_ f b ss                                                      -- 234
    | some (some h) =>
      match Subst.callF h f b, allSome (s.2.map (Subst.callF h f)), matches_ f b ss with  -- 235
      | some hd, some bd, some ts => some ((h, (hd, bd)) :: ts)
      | _, _, _ => none

/-- `lookup(b, Subst())` (runtime.py:224-235) -/
def lookup (g : Cfg) (f : Nat) (b : Tm) : Option (List (Heap × Ty)) :=
  match matches_ f b g.chart with
  | none => none
  | some ts => some (if g.builtin b then (noHeap, (b, [b])) :: ts else ts)              -- 226-230

/-- the sum of results, if all of them are there -/
def sumM : List (Option ℕ∞) → Option ℕ∞
  | [] => some 0
  | x :: xs => match x, sumM xs with
    | some a, some b => some (a + b)
    | _, _ => none

/-- the least of some results, if all of them are there -/
def minM : List (Option ℕ∞) → Option ℕ∞
  | [] => some ⊤
  | x :: xs => match x, minM xs with
    | some a, some b => some (min a b)
    | _, _ => none

/-- one type of the subgoal that was picked (runtime.py:183-216): `next C2` is the bound for the subgoals that are left -/
def typeTime (g : Cfg) (f : Nat) (C : List Tm) (V : Finset Nat) (next : List Tm → Option ℕ∞) (ht : Heap × Ty) : Option ℕ∞ :=
  match allSome (C.map (Subst.callF ht.1 f)) with
  | none => none
  | some C' => match g.simp (ht.2.1, ht.2.2 ++ C') with                                 -- 185
    | .none => some 0                                                                   -- 191
    | .oof | .err => none
    | .ty _ C2 => match next C2.dedup with
      | none => none
      | some r => some (stypeBound g ht.2.1 V ht.2.2 * r)                               -- 198, 212

/-- `_suffixtime(suffix, C, V)` (runtime.py:148-222); the number is that of the subgoals that are left -/
def suffixtime (g : Cfg) (f : Nat) : Nat → List Tm → List Tm → Finset Nat → Option ℕ∞
  | _, [], _, _ => some 1                                                               -- 169-171
  | 0, _ :: _, _, _ => none
  | n + 1, b :: bs, C, V =>
    match minM ((if g.fast then [b] else b :: bs).map fun p =>                          -- 173-176
      match lookup g f p with                                                           -- 183
      | none => none
      | some ts => sumM (ts.map (typeTime g f C V fun C2 =>
          suffixtime g f n ((b :: bs).erase p) C2 (V ∪ vars p)))) with                  -- 212-216
    | none => none
    | some best => some (1 + best)                                                      -- 222

/-- `Runtime.__call__(r)` for the body of a rule (runtime.py:145) -/
def ruleTime (g : Cfg) (f : Nat) (body : List Tm) : Option ℕ∞ := suffixtime g f body.dedup.length body.dedup [] ∅

/-- `Runtime.__call__` for a list of rules (runtime.py:141-142) -/
def progTime (g : Cfg) (f : Nat) (bodies : List (List Tm)) : Option ℕ∞ := sumM (bodies.map (ruleTime g f))

end Runtime
end Verif
