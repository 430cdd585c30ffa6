/-
The linear solver from rules to values: `Program.solve_linear` (program.py:842-845) and `kleene_linsolve`
(execute/linear.py:31-91), with `Program.booleanize` (357-364), `remove_constants` (analyze/types.py:39-41) and
the loop of `Program.agenda` (program.py:1033-1064).  Building the arrays and `kleene` are in `Verif.Kleene`,
one iteration of `agenda` in `Verif.Naive`, looking up a body in a chart in `Verif.Query`.

Not modelled: instances whose head or unknown is not ground (the signal `nonground`), which the code turns into
unknowns up to renaming (linear.py:71-78).  A builtin among the unknowns is represented by a term with the
functor of the builtin (`=`) or with the functor `$cmp` (comparisons have no name in `BLit`).
-/
import Verif.Naive
import Verif.Kleene
import Verif.Sem

set_option linter.unusedSectionVars false
set_option linter.unusedSimpArgs false

namespace Verif
open Tm Heap

namespace LinSolve
open Solver (forEach plus noHeap)
open Query
open Sem (TV)
open Naive (AgSt agStep stepF nonground)
variable {K : Type} [CommSemiring K]

/-- `assert len(vs) <= 1` (linear.py:63) -/
abbrev assertion : Sig := .exc 9

/-- the body elements kept by `remove_constants` (types.py:41), in a program over truth values -/
def boolLit : BLit K → Option (BLit TV)
  | .val _ => none
  | .sub t => some (.sub t)
  | .eq x y => some (.eq x y)
  | .cmp o x y => some (.cmp o x y)

/-- `remove_constants(p, r)` (types.py:39-41) -/
def boolRule (r : SRule K) : SRule TV := ⟨r.head, r.body.filterMap boolLit⟩

/-- `booleanize()` (program.py:357-364) with what `agenda` needs of the semiring `Boolean` -/
def booleanize (rules : List (SRule K)) : Naive.Cfg TV :=
  ⟨rules.map boolRule, fun c => c == 0, 1, fun a b => a == b, fun a b => a == b⟩

/-- the loop of `agenda` (1044-1062) with the choice `i = 0` (1049); `none` after `n` iterations -/
def agendaLoop {W : Type} [CommSemiring W] (g : Naive.Cfg W) (f : Nat) : Nat → AgSt W → Option (AgSt W × Sig)
  | 0, _ => none
  | n + 1, st => match st.change with
    | [] => some (st, .done)
    | _ :: _ => match agStep g f 0 st with
      | none => none
      | some (st', .done) => agendaLoop g f n st'
      | some r => some r

/-- `agenda()` (1033-1064) -/
def agenda {W : Type} [CommSemiring W] (g : Naive.Cfg W) (f n : Nat) : Option (Dict Tm W × Sig) :=
  match stepF g f [] with
  | none => none
  | some (c, .done) => (agendaLoop g f n ⟨[], [], c⟩).map fun r => (r.1.new, r.2)
  | some (_, sig) => some ([], sig)

/-- the product of the constants of a body (linear.py:57-60) -/
def coeff (body : List (BLit K)) : K := body.foldl (fun c z => match z with
  | .val k => c * k
  | _ => c) 1

/-- a body element that is not a constant, as a term -/
def asTerm : BLit K → Option Tm
  | .val _ => none
  | .sub t => some t
  | .eq x y => some (.app [.con (.str "="), x, y])
  | .cmp _ x y => some (.app [.con (.str "$cmp"), x, y])

/-- the list `vs` of the other elements (linear.py:56-62) -/
def unknowns (body : List (BLit K)) : List Tm := body.filterMap asTerm

/-- the charts `M` and `V` (linear.py:47-48) -/
structure MV (K : Type) where
  M : Dict (Tm × Tm) K
  V : Dict Tm K

/-- the body of the inner loop (linear.py:55-78) for one instance of the rule `r` -/
def record (f : Nat) (r : SRule K) : Body (MV K) := fun h s =>
  match unknowns r.body with
  | [] =>                                                                                   -- 65-66
    match groundF h f r.head, derefF h f r.head with
    | some true, some x => some (h, ⟨s.M, s.V.set x (plus (s.V.get x) (coeff r.body))⟩, .done)
    | some false, some _ => some (h, s, nonground)
    | _, _ => none
  | [t] =>                                                                                  -- 68-78
    match groundF h f r.head, groundF h f t, derefF h f r.head, derefF h f t with
    | some true, some true, some x, some y =>
      some (h, ⟨s.M.set (x, y) (plus (s.M.get (x, y)) (coeff r.body)), s.V⟩, .done)
    | some _, some _, some _, some _ => some (h, s, nonground)
    | _, _, _, _ => none
  | _ => some (h, s, assertion)                                                             -- 63

/-- the estimated support as a chart: the results of the lookups are not used (`for _ in bsol[r.body]`,
linear.py:53), so every item has the result `one` -/
def support (b : Dict Tm TV) : Src K := ⟨b.map fun e => (e.1, (1 : K)), true⟩

/-- the two loops over rules and instances (linear.py:52-78) -/
def buildMV (f : Nat) (b : Dict Tm TV) (rules : List (SRule K)) : Option (Heap × MV K × Sig) :=
  forEach rules (fun r => getItem f id (support b) r.body fun _ => record f r) noHeap ⟨[], []⟩

/-- `Sol` (linear.py:89): one rule per item of the alphabet -/
def solution (star : K → K) (s : MV K) : Dict Tm K :=
  List.ofFn fun i : Fin (Kleene.alphabet s.M s.V).length => ((Kleene.alphabet s.M s.V)[i], Kleene.linsolve star s.M s.V i)

/-- `kleene_linsolve(p)` (linear.py:33-91); `n` bounds the iterations of `agenda` -/
def linSolve (star : K → K) (f n : Nat) (rules : List (SRule K)) : Option (Dict Tm K × Sig) :=
  match agenda (booleanize rules) f n with
  | none => none
  | some (b, .done) => match buildMV f b rules with
    | none => none
    | some (_, s, .done) => some (solution star s, .done)
    | some (_, _, sig) => some ([], sig)
  | some (_, sig) => some ([], sig)

end LinSolve
end Verif
