/-
Constraint propagation: `ConstraintPropagation` and `Chart` of `/repo/dyna/propagate.py`.

Sets (`chart`, `agenda`, `checked`) are lists without repetitions; the order in which a set is iterated is
given by a function `ord`, the element that `agenda.pop()` returns is chosen by the relation `Run`.
Simplified: constraints have no bound variables (`Var.value`); the built-in constraints (`is`, and the
comparisons, which the code passes on as `is(true, ·)`) are a parameter `blt`; a propagation hook is given by
the constraints it adds (with `cp.update`) for a driver, as the only hook in the code does (rewrites.py:46-60);
debug output is not modelled.
-/
import Verif.TermOps

set_option linter.unusedSectionVars false
set_option linter.unusedSimpArgs false

namespace Verif
namespace Propagate
open Tm

/-- The string constant `s` as a functor. -/
abbrev fnc (s : String) : Tm := .con (.str s)

/-- `FAIL = Term('$fail')` (propagate.py:11). -/
def FAIL : Tm := .app [fnc "$fail"]

/-- `Term('=', x, y)`. -/
def eqT (x y : Tm) : Tm := .app [fnc "=", x, y]

/-- `isinstance(x, Term) and x.fn == s`. -/
def fnIs (s : String) : Tm → Bool
  | .app (.con (.str s') :: _) => s' == s
  | _ => false

/-- `isinstance(x, Var)`. -/
def isVar : Tm → Bool
  | .var _ => true
  | _ => false

/-- One value yielded by `check` (propagate.py:88-156): `Ellipsis`, `None`, or a substitution given by its
items. -/
inductive Chk
  | wait
  | no
  | yes (eqs : List (Tm × Tm))
deriving DecidableEq

/-- The parameters of a propagator: rules (head, body); the results of evaluating a built-in constraint;
`is_ready`; the results of the recursive query for `ks` and `ws` (propagate.py:108-127) when the queried
constraint is not in the chart; the constraints that the propagation hooks add for a driver. -/
structure Env where
  rules : List (Tm × List Tm)
  blt : Tm → List Chk
  ready : Tm → Bool
  ksq : List Tm → Tm → List Chk
  hooks : Tm → List Tm

/-- The mutable attributes (propagate.py:168-174). -/
structure St where
  chart : List Tm
  agenda : List Tm
  bindings : List Tm
  checked : List Tm
deriving DecidableEq

/-- What a piece of the code does: run out of fuel (only for `cover` and substitution), raise, return `None`
from `__call__`, or continue. -/
inductive Out
  | oof
  | err
  | fail
  | ok (st : St)
deriving DecidableEq

def Out.bind (o : Out) (g : St → Out) : Out :=
  match o with
  | .ok st => g st
  | o => o

/-- A `for` loop. -/
def loop {α : Type} (g : α → St → Out) : List α → St → Out
  | [], st => .ok st
  | a :: as, st => (g a st).bind (loop g as)

/-- Adding to a set. -/
def ins (x : Tm) (l : List Tm) : List Tm := if x ∈ l then l else l ++ [x]

/-- `update` (propagate.py:158-166), with `Chart.update` (lines 51-52). -/
def update (x : Tm) (st : St) : St :=
  if x ∈ st.chart then st else { st with chart := st.chart ++ [x], agenda := ins x st.agenda }

/-- `replace_in_expr(x, X, Y)` (term.py:847-861) on terms without bound variables. -/
def replaceIn (X Y : Tm) : Tm → Tm
  | .app as => if Tm.app as = X then Y else .app (replaceInL as)
  | t => if t = X then Y else t
where
  replaceInL : List Tm → List Tm
    | [] => []
    | a :: as => replaceIn X Y a :: replaceInL as

/-- `Chart.join` (propagate.py:31-49), whose consumer `leaf` may extend the chart while the generators are
suspended: each `lookup` iterates over a snapshot of the chart taken when it starts. -/
def join (f : Nat) (ord : List Tm → List Tm) (leaf : Heap → St → Out) : List Tm → Heap → St → Out
  | [], s, st => leaf s st
  | q :: qs, s, st =>
    loop (fun x st => match Subst.coverF f s q x with
      | none => .oof
      | some none => .ok st
      | some (some s') => join f ord leaf qs s' st) (ord st.chart) st

/-- The loop bodies at propagate.py:185-188 and 244-247. -/
def leaf (f : Nat) (head : Tm) (s : Heap) (st : St) : Out :=
  match Subst.callF s f head with
  | none => .oof
  | some h => if h = FAIL then .fail else .ok (update h st)

/-- The empty substitution. -/
def nil : Heap := fun _ => none

/-- Lines 178-188: the inputs, and every rule against them. -/
def start (E : Env) (f : Nat) (ord : List Tm → List Tm) (D : List Tm) : Out :=
  loop (fun r st => join f ord (leaf f r.1) r.2 nil st) E.rules
    (D.foldl (fun st x => update x st) ⟨[], [], [], []⟩)

/-- `check` (propagate.py:88-156). -/
def check (E : Env) (chart : List Tm) (q : Tm) : List Chk :=
  if fnIs "ks" q ∨ fnIs "ws" q then
    if q ∈ chart then [.yes []] else E.ksq chart q                          -- 117-119, 127-134
  else if fnIs "<" q ∨ fnIs ">" q ∨ fnIs "<=" q ∨ fnIs ">=" q ∨ fnIs "is" q then E.blt q
  else [.wait]

/-- Lines 202-207. -/
def checks (d : Tm) : List Chk → St → Out
  | [], st => .ok st
  | .wait :: cs, st => checks d cs st
  | .no :: _, _ => .fail
  | .yes eqs :: cs, st =>
    checks d cs (eqs.foldl (fun st kv => update (eqT kv.1 kv.2) st) { st with checked := ins d st.checked })

/-- Lines 221-225: apply an equality to the constraints of the chart that are not equalities. -/
def rewrite (ord : List Tm → List Tm) (X Y : Tm) (st : St) : St :=
  if X = Y then st else
    (ord st.chart).foldl (fun st x => match x with
      | .app as => if fnIs "=" (.app as) then st else
          update (replaceIn Y X (.app as)) (update (replaceIn X Y (.app as)) st)
      | _ => st) st

/-- Lines 235-237. -/
def readd (E : Env) (ord : List Tm → List Tm) (st : St) : St :=
  { st with agenda := ((ord st.chart).filter fun x => fnIs "is" x && E.ready x).foldl (fun a x => ins x a) st.agenda }

/-- Lines 209-237. -/
def equality (E : Env) (ord : List Tm → List Tm) (d : Tm) (st : St) : Out :=
  if fnIs "=" d then
    match d with
    | .app [_, X, Y] =>
      if !isVar X && !isVar Y && decide (X ≠ Y) then .fail else
        let st := { st with checked := ins d st.checked }
        let st := rewrite ord X Y st
        let st := { st with bindings := st.bindings ++ [d] }
        .ok (readd E ord st)
    | _ => .err                                                    -- ValueError: unpacking
  else .ok st

/-- Lines 239-247. -/
def drive (E : Env) (f : Nat) (ord : List Tm → List Tm) (d : Tm) (st : St) : Out :=
  loop (fun r st => loop (fun k st => match r.2[k]? with
    | none => .ok st
    | some b => match Subst.coverF f nil b d with
      | none => .oof
      | some none => .ok st
      | some (some s) => join f ord (leaf f r.1) (r.2.eraseIdx k) s st) (List.range r.2.length) st) E.rules st

/-- One iteration of the `while` loop after `agenda.pop()` (lines 196-250). -/
def body (E : Env) (f : Nat) (ord : List Tm → List Tm) (d : Tm) (st : St) : Out :=
  (checks d (check E st.chart d) st).bind fun st =>
  (equality E ord d st).bind fun st =>
  (drive E f ord d st).bind fun st =>
  .ok ((E.hooks d).foldl (fun st x => update x st) st)                      -- 249-250

/-- States at the head of the `while` loop of `__call__` (propagate.py:168-250), for any iteration order and
any choice of `agenda.pop()`. -/
inductive Run (E : Env) (D : List Tm) : St → Prop
  | start {f ord st} : (∀ l, (ord l).Perm l) → start E f ord D = .ok st → Run E D st
  | step {f ord st st' d l₁ l₂} : Run E D st → st.agenda = l₁ ++ d :: l₂ → (∀ l, (ord l).Perm l) →
      body E f ord d { st with agenda := l₁ ++ l₂ } = .ok st' → Run E D st'

/-- `__call__(D)` returns: `none` for `None`, `some st` for the chart, with the final attributes. -/
inductive Returns (E : Env) (D : List Tm) : Option St → Prop
  | startFail {f ord} : (∀ l, (ord l).Perm l) → start E f ord D = .fail → Returns E D none
  | fail {f ord st d l₁ l₂} : Run E D st → st.agenda = l₁ ++ d :: l₂ → (∀ l, (ord l).Perm l) →
      body E f ord d { st with agenda := l₁ ++ l₂ } = .fail → Returns E D none
  | done {st} : Run E D st → st.agenda = [] → Returns E D (some st)

end Propagate
end Verif
