/-
Simple types and their simplification: class `Rewrites` of `/repo/dyna/analyze/rewrites.py`.

A simple type is a rule, given by its head and body.  Constraint propagation is the model of Propagate.lean;
its results are a relation, because they depend on the iteration order of Python's sets.
Simplified: no bound variables (so `deref` does nothing), `$free` and `$bound` have an argument; debug output
is not modelled.
-/
import Verif.Propagate
import Verif.Subst

set_option linter.unusedSectionVars false
set_option linter.unusedSimpArgs false

namespace Verif
namespace Rewrites
open Tm Heap Propagate

/-- A simple type: head and body. -/
abbrev Ty := Tm × List Tm

/-- `isinstance(x, Term)`. -/
def isApp : Tm → Bool
  | .app _ => true
  | _ => false

mutual
/-- `rec_bound(x)` (rewrites.py:49-57): the constraints passed to `cp.update`. -/
def recBound : Tm → List Tm
  | .app (g :: as) =>
    (if fnIs "$bound" (.app (g :: as)) then [] else [.app [fnc "$bound", .app (g :: as)]]) ++ recBoundL as
  | _ => []
def recBoundL : List Tm → List Tm
  | [] => []
  | a :: as => recBound a ++ recBoundL as
end

/-- `_propagation_hook_bound` (rewrites.py:46-60). -/
def boundHook (d : Tm) : List Tm := if fnIs "$bound" d then recBound d else []

/-- `self.cp` (rewrites.py:31-36). -/
def cp (rules : List (Tm × List Tm)) (blt : Tm → List Chk) (ready : Tm → Bool) (ksq : List Tm → Tm → List Chk) : Env :=
  ⟨rules, blt, ready, ksq, boundHook⟩

/-- `self.cp_no_free_merge` (rewrites.py:39-44): one more rule, on the variable `v`. -/
def noMerge (v : Nat) (E : Env) : Env :=
  { E with rules := E.rules ++ [(FAIL, [.app [fnc "$free", .var v], .app [fnc "$bound", .var v]])] }

/-- Look-up in `Subst({x: y for _, x, y in bindings})` (rewrites.py:73): the last binding of a key counts. -/
def lookup (B : List Tm) (t : Tm) : Option Tm :=
  B.reverse.findSome? fun
    | .app [_, x, y] => if x = t then some y else none
    | _ => none

/-- `subst(t)` (term.py:446-457); the keys may be any terms. -/
def callB (B : List Tm) : Nat → Tm → Option Tm
  | 0, _ => none
  | f + 1, t => match lookup B t with
    | some u => callB B f u
    | none => match t with
      | .app as => (allSome (as.map (callB B f))).map .app
      | t => some t

/-- What a call returns: no result (out of fuel), an exception, `None`, or a simple type. -/
inductive Res
  | oof
  | err
  | none
  | ty (head : Tm) (body : List Tm)
deriving DecidableEq

/-- `x.args[0]` for the constraints with functor `s`. -/
def args0 (s : String) (ch : List Tm) : List Tm :=
  ch.filterMap fun
    | .app (g :: x :: _) => if fnIs s (.app [g]) then some x else Option.none
    | _ => Option.none

/-- `X in term_vars(y)`. -/
def occ : Tm → Tm → Bool
  | .var n, y => decide (n ∈ vars y)
  | _, _ => false

/-- Line 123: the type without the constraints of `drop`. -/
def ret (h : Option Tm) (ch drop : List Tm) : Res :=
  match h with
  | some h => .ty h (ch.filter fun x => decide (x ∉ drop))
  | Option.none => .oof

/-- rewrites.py:78-123: `ch` is the chart after substitution. -/
def insts (dc ui afm : Bool) (B checked : List Tm) (h : Option Tm) (ch : List Tm) : Res :=
  let drop := if dc then checked else []                                                     -- 78
  if ui then
    let bound := args0 "$bound" ch                                                           -- 87
    let free := args0 "$free" ch                                                             -- 88
    let drop := drop ++ (bound.filter fun X => !isVar X).map fun X => .app [fnc "$bound", X] -- 92-93
    if afm then
      ret h ch (drop ++ (free.filter fun X => !isVar X ||
        ch.any fun y => !fnIs "$free" y && occ X y).map fun X => .app [fnc "$free", X])      -- 95-105
    else if free.any fun X => !isVar X then .none                                            -- 114
    else if free.any fun X => decide (1 < (B.filter fun b => match b with
      | .app [_, P, Q] => decide (X = P ∨ X = Q)
      | _ => false).length) then .none                                                       -- 117-118
    else if ch.any fun y => free.any fun X => !fnIs "$free" y && occ X y then .none          -- 120-121
    else ret h ch drop
  else ret h ch drop

/-- `__call__` after propagation (rewrites.py:73-123). -/
def finish (f : Nat) (dc ui afm : Bool) (R : Ty) (st : St) : Res :=
  match allSome ((st.chart.filter fun x => isApp x && !fnIs "=" x).map (callB st.bindings f)) with   -- 73-74
  | Option.none => .oof
  | some ch =>
    if ch.all isApp then insts dc ui afm st.bindings st.checked (callB st.bindings f R.1) ch.dedup
    else .err                                                                                -- 76

/-- `rewrites(R, drop_checked, USE_INSTS, ALLOW_FREE_MERGE)` (rewrites.py:65-123), with the propagator `E`. -/
inductive Call (E : Env) (dc ui afm : Bool) (R : Ty) : Res → Prop
  | fail : Returns E R.2 Option.none → Call E dc ui afm R .none
  | done {f st} : Returns E R.2 (some st) → finish f dc ui afm R st ≠ .oof →
      Call E dc ui afm R (finish f dc ui afm R st)

/-- The list `sc` is `scons(subst)` (propagate.py:14-15) up to order. -/
def Scons (s : Heap) (sc : List Tm) : Prop := ∀ e, e ∈ sc ↔ ∃ n u, s n = some u ∧ e = eqT (.var n) u

/-- Lines 172-176. -/
def verdict : Res → Res → Res → Option Bool
  | .none, .none, _ | .none, .ty .., _ => some true
  | .ty .., .none, _ => some false
  | .ty .., .ty .., .none => some false
  | .ty hS bS, .ty .., .ty hT bT => some (decide (hS = hT) && bT.all fun x => decide (x ∈ bS))
  | _, _, _ => Option.none

/-- `covers(r, s)` (rewrites.py:134-176) returns a true (false) value.  The three calls all take place before
the first test, so an exception in any of them is an exception of `covers`. -/
inductive Covers (v : Nat) (E : Env) (r s : Ty) : Bool → Prop
  | clash {f} : Subst.mguF f (fun _ => Option.none) r.1 s.1 = some Option.none → Covers v E r s false
  | mk {f σ sc R S T b} : Subst.mguF f (fun _ => Option.none) r.1 s.1 = some (some σ) → Scons σ sc →
      Call E true true true (r.1, r.2 ++ sc) R →
      Call E true true true s S →
      Call (noMerge v E) true true false (r.1, s.2 ++ r.2 ++ sc) T → T ≠ .err →
      verdict S R T = some b → Covers v E r s b

/-- `intersect(r, s)` (rewrites.py:125-132), where `s` is already renamed apart from `r`. -/
inductive Intersect (v : Nat) (E : Env) (r s : Ty) (afm : Bool) : Res → Prop
  | clash {f} : Subst.mguF f (fun _ => Option.none) r.1 s.1 = some Option.none → Intersect v E r s afm .none
  | mk {f σ sc R} : Subst.mguF f (fun _ => Option.none) r.1 s.1 = some (some σ) → Scons σ sc →
      Call (if afm then E else noMerge v E) false true afm (r.1, r.2 ++ s.2 ++ sc) R → Intersect v E r s afm R

end Rewrites
end Verif
