/-
The Newton solver: `Program.newton` and `Program._newton` (program.py:1095-1140).  Each round solves the
linearization of the program with `solve_linear` (`Verif.LinSolve`), adds the solution to the chart and builds the
next linearization with stream assignments (`__setitem__`, 1246-1257; `update`, 431-437; `constant_folding_rhs`,
1440-1454; `_update_bucket`, 395-415).  Looking up parts of a body in a chart is in `Verif.Query`.

Simplifications.  Rules with a constant body and a head that is not ground give the signal `nonground`; the code
merges those up to renaming.  `fresh` (436) is left out: it renames the variables of a rule, which are local to
it.  The printing of `newton` (1101-1106, 1108, 1111) is left out.
-/
import Verif.LinSolve

set_option linter.unusedSectionVars false
set_option linter.unusedSimpArgs false

namespace Verif
open Tm Heap

namespace Newton
open Solver (forEach plus multiple noHeap litTerms)
open Query
open Naive (Cfg splits foldChart nonground)
open LinSolve (linSolve)
variable {K : Type} [CommSemiring K]

/-- `is_const(y)` (rule.py:18-19) -/
def isConst : BLit K → Bool
  | .val _ => true
  | _ => false

/-- `deref` of a body element that is not a constant -/
def derefLit (h : Heap) (f : Nat) : BLit K → Option (BLit K)
  | .val k => some (.val k)
  | .sub t => (derefF h f t).map .sub
  | .eq x y => match derefF h f x, derefF h f y with
    | some x', some y' => some (.eq x' y')
    | _, _ => none
  | .cmp o x y => match derefF h f x, derefF h f y with
    | some x', some y' => some (.cmp o x' y')
    | _, _ => none

/-- the test of 1252-1255 for a result with the delayed element `y`: `multiple(inf)` if some unbound variable of
the rule occurs neither in the head nor in `y` -/
def dropped (inf : K) (f : Nat) (h : Heap) (r : SRule K) (y : BLit K) : Option K :=
  match derefF h f (.app (r.body.flatMap litTerms)), derefF h f (.app (r.head :: litTerms y)) with
  | some b, some a => some (if vars b ⊆ vars a then 1 else inf)
  | _, _ => none

/-- `update` of a program with the rule `x += C` (431-437) with `x` ground: a rule with the same head and a
constant body takes the sum -/
def mergeConst (x : Tm) (c : K) : List (SRule K) → List (SRule K)
  | [] => [⟨x, [.val c]⟩]
  | r :: l => match r.body with
    | [.val s] => if r.head = x then ⟨x, [.val (s + c)]⟩ :: l else r :: mergeConst x c l
    | _ => r :: mergeConst x c l

/-- one result of the recursive case (1133): the rule `x += P * y` with the product `P` of the looked up factors;
dead rules are dropped, the factor `one` is left out (1449-1454) -/
def emitRec (g : Cfg K) (one? : K → Bool) (f : Nat) (r : SRule K) (y : BLit K) (P : List K) : Body (List (SRule K)) := fun h q =>
  match dropped g.inf f h r y, derefF h f r.head, derefLit h f y with
  | some m, some x, some y' =>
    let c := P.foldl (· * ·) 1 * m
    if g.dead c then some (h, q, .done)
    else if one? c then some (h, q ++ [⟨x, [y']⟩], .done)
    else some (h, q ++ [⟨x, [.val c, y']⟩], .done)
  | _, _, _ => none

/-- one result of the base case (1138): the rule `x += P` -/
def emitBase (g : Cfg K) (f : Nat) (r : SRule K) (P : List K) : Body (List (SRule K)) := fun h q =>
  match multiple g.inf f h r, groundF h f r.head, derefF h f r.head with
  | some m, some true, some x =>
    let c := P.foldl (· * ·) 1 * m
    if g.dead c then some (h, q, .done) else some (h, mergeConst x c q, .done)
  | some _, some false, some _ => some (h, q, nonground)
  | _, _, _ => none

/-- `combinations(range(K), 2)` (1135): the ways to single out two elements -/
def splits2 {α : Type} (l : List α) : List (List α × α × List α × α × List α) :=
  (splits l).flatMap fun p => (splits p.2.2).map fun q => (p.1, p.2.1, q.1, q.2.1, q.2.2)

/-- the recursive case of one rule (1131-1133) -/
def recCase (g : Cfg K) (one? : K → Bool) (f : Nat) (next : Dict Tm K) (r : SRule K) : Body (List (SRule K)) :=
  forEach ((splits r.body).filter fun p => !isConst p.2.1) fun p =>
    getItem f id ⟨next, true⟩ p.1 fun L => getItem f id ⟨next, true⟩ p.2.2 fun R => emitRec g one? f r p.2.1 (L ++ R)

/-- the base case of one rule (1135-1138); `change` has no builtins (kleene_linsolve of a program without) -/
def baseCase (g : Cfg K) (f : Nat) (chart change next : Dict Tm K) (r : SRule K) : Body (List (SRule K)) :=
  forEach ((splits2 r.body).filter fun p => !isConst p.2.1 && !isConst p.2.2.2.1) fun p =>
    getItem f id ⟨next, true⟩ p.1 fun A => lookupVals f id ⟨change, false⟩ p.2.1 fun b =>
      getItem f id ⟨chart, true⟩ p.2.2.1 fun C => lookupVals f id ⟨change, false⟩ p.2.2.2.1 fun d =>
        getItem f id ⟨chart, true⟩ p.2.2.2.2 fun E => emitBase g f r (A ++ ([b] ++ (C ++ ([d] ++ E))))

/-- the loop over the rules (1127-1138) that builds `next_change_p` -/
def linearized (g : Cfg K) (one? : K → Bool) (f : Nat) (chart change next : Dict Tm K) : Option (List (SRule K) × Sig) :=
  (forEach g.rules (fun r => forEach [recCase g one? f next r, baseCase g f chart change next r] fun b => b) noHeap []).map (·.2)

/-- the variables of the loop of `_newton` (1116-1140) -/
structure NSt (K : Type) where
  chart : Dict Tm K
  changeP : List (SRule K)

/-- before the loop (1116-1119): rules with at most one element that is not a constant -/
def start (g : Cfg K) : NSt K := ⟨[], g.rules.filter fun r => (r.body.filter fun z => !isConst z).length ≤ 1⟩

/-- `change = change_p.solve_linear()` (1123); `n` bounds the iterations of its agenda -/
def solveChange (star : K → K) (f n : Nat) (st : NSt K) : Option (Dict Tm K × Sig) := linSolve star f n st.changeP

/-- `next_chart` (1124) -/
def nextChart (g : Cfg K) (st : NSt K) (change : Dict Tm K) : Dict Tm K := foldChart g.dead (st.chart ++ change)

/-- `newton(T)` (1095-1112) from iteration `t + 1` on, for at most `m` iterations -/
def newtonF (g : Cfg K) (one? : K → Bool) (star : K → K) (f n : Nat) (T : Option Nat) : Nat → Nat → NSt K → Option (Dict Tm K × Sig)
  | 0, _, _ => none
  | m + 1, t, st => match solveChange star f n st with
    | none => none
    | some (change, .done) =>
      let next := nextChart g st change
      if g.same st.chart next then some (next, .done)                                       -- 1107-1109
      else if T = some (t + 1) then some (next, .done)                                      -- 1110-1112
      else match linearized g one? f st.chart change next with
        | none => none
        | some (p, .done) => newtonF g one? star f n T m (t + 1) ⟨next, p⟩
        | some (_, sig) => some (next, sig)
    | some (_, sig) => some (st.chart, sig)

/-- `newton(T)` -/
def newton (g : Cfg K) (one? : K → Bool) (star : K → K) (f n m : Nat) (T : Option Nat) : Option (Dict Tm K × Sig) :=
  newtonF g one? star f n T m 0 (start g)

end Newton
end Verif
