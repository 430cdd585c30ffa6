/-
Type analysis by abstract forward chaining: class `TypeAnalyzer` and `to_type_program` of
`/repo/dyna/analyze/types.py`, with `Program.step` (`/repo/dyna/program.py` 1167-1176), `lookup` and
`lookup_vals` (1259-1371), `is_input` (514-516), `join_f` (`/repo/dyna/term.py` 44-56) and `MostGeneralSet.add`
(962-982) on simple types.

A simple type (`Rewrites.Ty`) is a head and a list of constraints; a chart is a list of simple types.
`rewrites(R)` and `rewrites.covers(r, s)` are parameters (their model is Rewrites.lean, where they are relations
because their results depend on the order of Python's sets): here they are functions that are also given the
allocation mark, so that equal calls may have different results.
Variables are numbered; the state carries the allocation mark.
Simplified: the sets of constraints are lists; `self.fresh()` (program.py:1288) renames each rule just before it
is used; `Program.update` drops the constants of a rule, but does not merge the rule with an equal one (`dedup`,
which comes right after, does); types whose head is a bare variable are not offered to queries with a functor; the
builtins `is`, `$not_matches` and `$lift` are not modelled (signal `unsupported`).
-/
import Verif.Rewrites
import Verif.Solver2
import Verif.TermTools
import Verif.Unfold

set_option linter.unusedSectionVars false
set_option linter.unusedSimpArgs false

namespace Verif
namespace TypeAn
open Tm Heap
open Rewrites (Ty Res)
open Solver (noHeap forEach)
open Unfold (Ops isInput unmodelled unsupported)

/-- The body of a booleanized rule (types.py:34-41): the subgoals, and `$free(v)` for every variable `v` of the
head that is not in the body; constants are removed. -/
def boolRule {W : Type} (r : WRule W) : Ty :=
  (r.head, (r.body.filterMap fun | .sub t => some t | .val _ => none) ++
    ((List.range ((vars r.head).sup (· + 1))).filter fun v => decide (v ∈ vars r.head \ Solver2.bodyVs r.body)).map fun v => .app [.con (.str "$free"), .var v])

/-- `to_type_program(p)` (types.py:43-50) -/
def toTypeProgram {W : Type} (p : List (WRule W)) : List Ty := p.map boolRule

/-- `TypeAnalyzer` (types.py:75-101): the booleanized rules of the program and its input type, the heads of
`self.inputs`, the comparison operators, `True`, the two operations of `self.rewrites`, and the depth limit. -/
structure Cfg where
  rules : List Ty
  inputs : List Tm
  ops : Ops
  one : Const
  simp : Nat → Ty → Res
  cov : Nat → Ty → Ty → Option Bool
  D : Nat

/-- `fresh(r)` (term.py:597-599) for a rule, variables numbered from `k` -/
def freshT (k : Nat) (r : Ty) : Ty × Nat :=
  match freshP k (.app (r.1 :: r.2)) with
  | (.app (h :: b), k') => ((h, b), k')
  | (_, k') => (r, k')

/-- what a rule object looks like under the current bindings (term.py:866-875) -/
def derefT (h : Heap) (f : Nat) (r : Ty) : Option Ty :=
  match derefF h f r.1, allSome (r.2.map (derefF h f)) with
  | some hd, some b => some (hd, b)
  | _, _ => none

section
variable {S : Type}

/-- one candidate in `lookup` (program.py:1287-1292, 1367-1371); the result is the body -/
def tryTy (f : Nat) (q : Tm) (body : List Tm → Body (S × Nat)) (x : Ty) : Body (S × Nat) := fun h s =>
  let r := freshT s.2 x
  unifyF f r.1.1 q (body r.1.2) h (s.1, r.2)

/-- `for d in chart.lookup_vals(q): body(d)` (program.py:1259-1371) -/
def lookupVals (g : Cfg) (f : Nat) (chart : List Ty) (q : Tm) (body : List Tm → Body (S × Nat)) : Body (S × Nat) := fun h s =>
  match snapF h f q with                                                                -- 1287
  | none => none
  | some (.con c) => body [.con c] h s                                                  -- 1261-1263
  | some (.var n) => forEach chart (tryTy f (.var n) body) h s                          -- 1287-1292
  | some (.app (.con c :: as)) =>
    if unmodelled c then some (h, s, unsupported) else
    match isInput f (.app (.con c :: as)) h g.inputs with                               -- 1305-1311
    | none => none
    | some true => body [.app (.con c :: as)] h s
    | some false =>
      match g.ops c, as with
      | some o, [x, y] =>                                                               -- 1317-1330
        match groundF h f x, groundF h f y, derefF h f x, derefF h f y with
        | some true, some true, some x', some y' =>
          if o x' y' then body [.con g.one] h s else some (h, s, .done)
        | some _, some _, some _, some _ =>
          match body [.app (.con c :: as)] h s with                                     -- delayed; no `return`
          | none => none
          | some (h, s, .done) => forEach (chart.filter fun x => hfn x.1 == some c) (tryTy f (.app (.con c :: as)) body) h s
          | some r => some r
        | _, _, _, _ => none
      | _, _ =>
        match c, as with
        | .str "=", [x, y] => unifyF f x y (body [.con g.one]) h s                      -- 1332-1338
        | c, as => forEach (chart.filter fun x => hfn x.1 == some c) (tryTy f (.app (.con c :: as)) body) h s   -- 1364-1371
  | _ => some (h, s, unsupported)

/-- `for ds in chart.join(*qs): body(ds)` (program.py:1241-1242, term.py:44-56); iterating `chart[qs]`
(program.py:1230-1239) does the same. -/
def join (g : Cfg) (f : Nat) (chart : List Ty) : List Tm → (List Tm → Body (S × Nat)) → Body (S × Nat)
  | [], body => body []
  | q :: qs, body => lookupVals g f chart q fun d1 => join g f chart qs fun d2 => body (d1 ++ d2)

end

/-- a number above all variables of a type -/
def above (t : Ty) : Nat := (vars (.app (t.1 :: t.2))).sup (· + 1)

/-- `_relax(r)` (types.py:203-220) for a rule without bound variables, with allocation mark `k`.  The outer
`none` stands for an exception or a call that does not return, the inner one for no result. -/
def relax (g : Cfg) (f k : Nat) (R : Ty) : Option (Option (Ty × Nat)) :=
  match g.simp k R with                                                                 -- 198
  | .oof | .err => none
  | .none => some none                                                                  -- 199
  | .ty hd bd =>
    match truncF noHeap f g.D hd (max k (above (hd, bd))) with                          -- 201
    | none => none
    | some (h', k') => some (some ((h', (bd.filter fun x => decide (vars x ⊆ vars h') && decide (vars x ≠ ∅)).dedup), k'))  -- 212-214

/-- the loop of `MostGeneralSet.add` (term.py:971-980) with `rewrites.covers`: inner `none` = some stored type
covers `r`, otherwise the stored types that `r` does not cover -/
def scan (g : Cfg) (k : Nat) (r : Ty) : List Ty → Option (Option (List Ty))
  | [] => some (some [])
  | s :: xs => match g.cov k s r with
    | none => none
    | some true => some none
    | some false => match g.cov k r s with
      | none => none
      | some b => match scan g k r xs with
        | none => none
        | some none => some none
        | some (some ys) => some (some (if b then ys else s :: ys))

/-- `add(r)` (term.py:962-982): the stored types, whether `r` was redundant, and the allocation mark -/
def add (g : Cfg) (k : Nat) (xs : List Ty) (r0 : Ty) : Option (List Ty × Bool × Nat) :=
  let r := freshT k r0
  match scan g r.2 r.1 xs with
  | none => none
  | some none => some (xs, true, r.2)
  | some (some ys) => some (ys ++ [r.1], false, r.2)

/-- `MostGeneralSet(xs, covers)` (term.py:955-958) -/
def addAll (g : Cfg) (k : Nat) (acc : List Ty) : List Ty → Option (List Ty × Nat)
  | [] => some (acc, k)
  | r :: rs => match add g k acc r with
    | none => none
    | some (acc, _, k) => addAll g k acc rs

/-- add the rule `R` under the current bindings to a list, renamed, with the body elements that `keep` says -/
def collect (f : Nat) (keep : Tm → Bool) (R : Ty) : Body (List Ty × Nat) := fun h s =>
  match derefT h f R with
  | none => none
  | some R =>
    let r := freshT s.2 (R.1, R.2.filter keep)
    some (h, (s.1 ++ [r.1], r.2), .done)

/-- `program.step(chart)` (program.py:1167-1176) with `__setitem__` (1246-1257); `update` (431-437) folds the
constants away -/
def progStep (g : Cfg) (f k : Nat) (chart : List Ty) : Option (List Ty × Nat) :=
  match forEach g.rules (fun r => join g f chart r.2 fun ds => collect f Rewrites.isApp (r.1, ds)) noHeap ([], k) with
  | some (_, s, .done) => some s
  | _ => none

/-- `relax(S)` (types.py:200-201) -/
def relaxAll (g : Cfg) (f k : Nat) : List Ty → Option (List Ty × Nat)
  | [] => some ([], k)
  | R :: Rs => match relax g f k R with
    | none => none
    | some none => relaxAll g f k Rs
    | some (some (x, k)) => match relaxAll g f k Rs with
      | none => none
      | some (xs, k) => some (x :: xs, k)

/-- `step()` (types.py:196-198): the new types, made irredundant by `dedup` (rewrites.py:184-191) -/
def step (g : Cfg) (f k : Nat) (chart : List Ty) : Option (List Ty × Nat) :=
  match progStep g f k chart with
  | none => none
  | some (Rs, k) => match relaxAll g f k Rs with
    | none => none
    | some (xs, k) => addAll g k [] xs

/-- the variables of `_run_basic`: `_chart` (which `self.chart` always equals) and `agenda` -/
structure St where
  chart : List Ty
  agenda : List Ty
deriving DecidableEq

/-- the body of the innermost loops (types.py:160-167); `R` is the new rule -/
def push (g : Cfg) (f : Nat) (R : Ty) : Body (St × Nat) := fun h s =>
  match derefT h f R with                                                               -- rewrites.py:67
  | none => none
  | some R => match relax g f s.2 R with
    | none => none
    | some none => some (h, s, .done)
    | some (some (x, k)) =>
      let x := freshT k x                                                               -- 153
      match add g x.2 s.1.chart x.1 with
      | none => none
      | some (_, true, k) => some (h, (s.1, k), .done)                                  -- 162-163
      | some (xs, false, k) => some (h, (⟨xs, s.1.agenda ++ [x.1]⟩, k), .done)          -- 164-167

/-- one subgoal of one rule driven by `d` (types.py:155-167) -/
def driveAt (g : Cfg) (f : Nat) (d r : Ty) (i : Nat) : Body (St × Nat) := fun h s =>
  match r.2[i]? with
  | none => some (h, s, .done)
  | some q => unifyF f q d.1 (fun h s =>
      join g f s.1.chart (r.2.eraseIdx i) (fun ds => push g f (r.1, ds ++ d.2)) h s) h s

/-- one round of the loop of `_run_basic` (types.py:149-167) -/
def popStep (g : Cfg) (f : Nat) (s : St × Nat) : Option (St × Nat) :=
  match s.1.agenda with
  | [] => some s
  | d :: ag =>
    let d := freshT s.2 d
    match forEach g.rules (fun r => forEach (List.range r.2.length) (driveAt g f d.1 r)) noHeap (⟨s.1.chart, ag⟩, d.2) with
    | some (_, s, .done) => some s
    | _ => none

/-- `n` rounds at most; `none` if the agenda is not empty then -/
def rounds (g : Cfg) (f : Nat) : Nat → St × Nat → Option (List Ty × Nat)
  | n, s => match s.1.agenda with
    | [] => some (s.1.chart, s.2)
    | _ :: _ => match n with
      | 0 => none
      | n + 1 => match popStep g f s with
        | none => none
        | some s => rounds g f n s

/-- `_run_basic` (types.py:143-168): the chart it leaves -/
def runBasic (g : Cfg) (f n k : Nat) : Option (List Ty × Nat) :=
  match step g f k [] with
  | none => none
  | some (ag, k) => match addAll g k [] ag with
    | none => none
    | some (ch, k) => rounds g f n (⟨ch, ag⟩, k)

/-- the loops of `intersect(Q)` (types.py:229-233) over the chart -/
def intersect (g : Cfg) (f k : Nat) (chart : List Ty) (Q : List Ty) : Option (List Ty × Nat) :=
  match forEach Q (fun r => join g f chart (r.1 :: r.2) fun ds => collect f (fun _ => true) (r.1, ds)) noHeap ([], k) with
  | some (_, (Rs, k), .done) => match relaxAll g f k Rs with
    | none => none
    | some (xs, k) => addAll g k [] xs
  | _ => none

/-- the loop of `_run_generalizing` (types.py:176-184), at most `n` iterations.  `disj` stands for
`rewrites.disjoin` (rewrites.py:194-206) and `same` for `Program.__eq__` (program.py:543-552).  The sorting of the
result (179) is left out. -/
def runGen (g : Cfg) (disj : Nat → List Ty → Option (List Ty × Nat)) (same : List Ty → List Ty → Bool) (f : Nat) :
    Nat → Nat → List Ty → Option (List Ty × Nat)
  | 0, _, _ => none
  | n + 1, k, chart => match step g f k chart with
    | none => none
    | some (xs, k) => match disj k xs with
      | none => none
      | some (new, k) => if same new chart then some (chart, k) else runGen g disj same f n k new

end TypeAn
end Verif
