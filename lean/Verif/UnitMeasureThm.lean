/-
Property C93: the unit measure.
-/
import Verif.UnitMeasure
import Verif.CollectThm

set_option linter.unusedSectionVars false
set_option linter.unusedSimpArgs false

namespace Verif
open Tm Heap Sem
open Solver (noHeap)

namespace UnitMeasure
open Measure (Rec Ival Folded addRef defineM unfoldM foldM anyO zeroMeasure newVars newVar)
open Unfold (Prog Ops unfold)
open Fold (fold minus)
open Hook (genName syms absorb revRule)
open SearchMoves
variable {W : Type}

/-! ### The unit measure is the symbolic one for the values 1 -/

section
variable [One W] [DecidableEq W] {S' : Type} [DecidableEq S']

/-- the same but for constraints that hold -/
structure Same (P Q : Rec W) : Prop where
  prog : P.prog = Q.prog
  lin : P.lineage = Q.lineage
  m : P.m = Q.m
  ok : P.ok = Q.ok

/-- both fail, or both succeed with the same -/
def SameO (P Q : Option (Rec W)) : Prop := (P = none ∧ Q = none) ∨ ∃ P' Q', P = some P' ∧ Q = some Q' ∧ Same P' Q'

theorem unfoldM_same {ops : Ops} {f k id i j : Nat} {inf : W} {P P' D D' : Rec W} (hP : Same P P') (hD : Same D D') :
    SameO (unfoldM f ops inf k id P D i j) (unfoldM f ops inf k id P' D' i j) := by
  have hv : ∀ n, Measure.violates f n P D = Measure.violates f n P' D' := fun n => by unfold Measure.violates; rw [hP.prog, hP.lin, hD.lin]
  have hc : ∀ rs, Measure.copied P rs = Measure.copied P' rs := fun rs => by unfold Measure.copied; rw [hP.prog, hP.m]
  unfold unfoldM
  rw [hP.prog, hD.prog, hP.lin]
  simp only [hv, hc, hP.m, hD.m]
  split
  · split
    · exact .inl ⟨rfl, rfl⟩
    · exact .inr ⟨_, _, rfl, rfl, rfl, rfl, rfl, rfl⟩
    · split
      · split
        · exact .inl ⟨rfl, rfl⟩
        · refine .inr ⟨_, _, rfl, rfl, rfl, rfl, rfl, ?_⟩
          have h1 := hP.ok
          have h2 := hD.ok
          unfold Rec.ok at h1 h2 ⊢
          simp only [List.all_append, h1, h2]
      · exact .inl ⟨rfl, rfl⟩
  · exact .inl ⟨rfl, rfl⟩

theorem foldM_same {e : Env W S'} {f k id j : Nat} {r : WRule W} {S : Finset Nat} {P P' D D' : Rec W} (hP : Same P P') (hD : Same D D') :
    SameO (foldM f e.o e.ord e.ops e.inf e.code e.pick k id P D r S j) (foldM f e.o e.ord e.ops e.inf e.code e.pick k id P' D' r S j) := by
  have hv : ∀ n, Measure.violates f n P D = Measure.violates f n P' D' := fun n => by unfold Measure.violates; rw [hP.prog, hP.lin, hD.lin]
  have hc : ∀ rs, Measure.copied P rs = Measure.copied P' rs := fun rs => by unfold Measure.copied; rw [hP.prog, hP.m]
  have he : Measure.foldEntry f e.ord e.ops e.code e.pick P D = Measure.foldEntry f e.ord e.ops e.code e.pick P' D' := by
    funext t; unfold Measure.foldEntry; rw [hP.prog, hP.m, hD.prog, hD.m]
  unfold foldM
  rw [hP.prog, hD.prog, hP.lin]
  simp only [hv, hc, he]
  split
  · split
    · exact .inl ⟨rfl, rfl⟩
    split
    · exact .inl ⟨rfl, rfl⟩
    · exact .inr ⟨_, _, rfl, rfl, rfl, rfl, rfl, rfl⟩
    · split
      · exact .inl ⟨rfl, rfl⟩
      · split
        · exact .inl ⟨rfl, rfl⟩
        · split
          · refine .inr ⟨_, _, rfl, rfl, rfl, rfl, rfl, ?_⟩
            have h1 := hP.ok
            have h2 := hD.ok
            unfold Rec.ok at h1 h2 ⊢
            simp only [List.all_append, h1, h2]
          · exact .inl ⟨rfl, rfl⟩
  · exact .inl ⟨rfl, rfl⟩

theorem newVars_m (a : Nat → Int) (b : Nat) (rs : List (WRule W)) : (newVars true (fun _ => 1) b rs).1 = (newVars false a b rs).1 := by
  simp [newVars, newVar]

theorem newVars_ok (b : Nat) (rs : List (WRule W)) : (newVars true (fun _ => 1) b rs).2.all id = true := by
  simp [newVars, newVar]

theorem newVars_none (a : Nat → Int) (b : Nat) (rs : List (WRule W)) : (newVars false a b rs).2 = [] := by
  simp [newVars, newVar]

theorem addRef_same {a : Nat → Int} {id : Nat} {p : Prog W} : Same (addRef true (fun _ => 1) id p) (addRef false a id p) := by
  refine ⟨rfl, rfl, newVars_m a 0 p.rules, ?_⟩
  simp only [Rec.ok, addRef, newVars_ok, newVars_none, List.all_nil]

theorem defineM_same {a : Nat → Int} {b id : Nat} {P P' : Rec W} {news : List (WRule W)} (h : Same P P') :
    SameO (defineM true (fun _ => 1) b id P news) (defineM false a b id P' news) := by
  unfold defineM
  rw [h.prog, h.lin]
  split
  · exact .inl ⟨rfl, rfl⟩
  · refine .inr ⟨_, _, rfl, rfl, rfl, rfl, ?_, ?_⟩
    · simp only [h.m, newVars_m a]
    · have h1 := h.ok
      unfold Rec.ok at h1 ⊢
      simp only [List.all_append, h1, newVars_ok, newVars_none, List.all_nil]

/-- stages that are the same but for constraints that hold -/
structure SameS (s t : Stage W) : Prop where
  R : Same s.R t.R
  defIx : s.defIx = t.defIx
  base : s.base = t.base
  c : s.c = t.c

def SameL (L M : Option (List (Stage W))) : Prop := (L = none ∧ M = none) ∨ ∃ L' M', L = some L' ∧ M = some M' ∧ List.Forall₂ SameS L' M'

theorem firstAppears_same {f : Nat} {x : Tm} {P Q : Stage W} (h : SameS P Q) {l m : List (Stage W)} (hl : List.Forall₂ SameS l m) :
    (firstAppears f x P l = none ∧ firstAppears f x Q m = none) ∨ ∃ D D', firstAppears f x P l = some D ∧ firstAppears f x Q m = some D' ∧ SameS D D' := by
  induction hl with
  | nil => exact .inr ⟨_, _, rfl, rfl, h⟩
  | @cons s t l m hs _ ih =>
    simp only [firstAppears, hs.R.prog]
    split
    · exact .inl ⟨rfl, rfl⟩
    · exact .inr ⟨_, _, rfl, rfl, hs⟩
    · exact ih

theorem step_same {e : Env W S'} {a : Nat → Int} {L M : List (Stage W)} (h : List.Forall₂ SameS L M) (m : Move W) : SameL (step { e with sym := true } (fun _ => 1) L m) (step (unit e) a M m) := by
  have hlen := h.length_eq
  cases h with
  | nil => exact .inl ⟨rfl, rfl⟩
  | @cons P Q L M hP hLM =>
    have hall : List.Forall₂ SameS (P :: L) (Q :: M) := .cons hP hLM
    cases m with
    | unfold f k i j =>
      simp only [step, unit, hP.R.prog, hlen]
      split
      · exact .inl ⟨rfl, rfl⟩
      · split
        · rename_i q _
          rcases firstAppears_same (f := f) (x := q) hP (List.rel_reverse hall) with ⟨h1, h2⟩ | ⟨D, D', h1, h2, h3⟩
          · rw [h1, h2]; exact .inl ⟨rfl, rfl⟩
          · rw [h1, h2]
            simp only
            rcases unfoldM_same (ops := e.ops) (f := f) (k := k) (id := (Q :: M).length) (i := i) (j := j) (inf := e.inf) hP.R h3.R with ⟨h4, h5⟩ | ⟨R, R', h4, h5, h6⟩
            · rw [h4, h5]; exact .inl ⟨rfl, rfl⟩
            · rw [h4, h5]; exact .inr ⟨_, _, rfl, rfl, .cons ⟨h6, rfl, hP.base, hP.c⟩ hall⟩
        · exact .inl ⟨rfl, rfl⟩
    | unfoldBy f k d i j =>
      simp only [step, unit, hP.R.prog, hlen]
      split
      · exact .inl ⟨rfl, rfl⟩
      · split
        · rename_i q _
          have hd : ((P :: L)[d]? = none ∧ (Q :: M)[d]? = none) ∨ ∃ D D', (P :: L)[d]? = some D ∧ (Q :: M)[d]? = some D' ∧ SameS D D' := by
            by_cases hd : d < (P :: L).length
            · exact .inr ⟨_, _, List.getElem?_eq_getElem hd, List.getElem?_eq_getElem (hlen ▸ hd), List.Forall₂.get hall hd (hlen ▸ hd)⟩
            · exact .inl ⟨List.getElem?_eq_none_iff.2 (by omega), List.getElem?_eq_none_iff.2 (by omega)⟩
          rcases hd with ⟨h1, h2⟩ | ⟨D, D', h1, h2, h3⟩
          · rw [h1, h2]; exact .inl ⟨rfl, rfl⟩
          · rw [h1, h2]
            simp only [h3.R.prog]
            split
            · exact .inl ⟨rfl, rfl⟩
            · rcases unfoldM_same (ops := e.ops) (f := f) (k := k) (id := (Q :: M).length) (i := i) (j := j) (inf := e.inf) hP.R h3.R with ⟨h4, h5⟩ | ⟨R, R', h4, h5, h6⟩
              · rw [h4, h5]; exact .inl ⟨rfl, rfl⟩
              · rw [h4, h5]; exact .inr ⟨_, _, rfl, rfl, .cons ⟨h6, rfl, hP.base, hP.c⟩ hall⟩
        · exact .inl ⟨rfl, rfl⟩
    | hook f k i js c =>
      simp only [step, unit, hP.R.prog, hlen, hP.c, hP.base]
      split
      · exact .inl ⟨rfl, rfl⟩
      · rename_i r _
        split
        · exact .inl ⟨rfl, rfl⟩
        · rcases defineM_same (a := a) (b := Q.base.length) (id := (Q :: M).length) (news := [absorb e.vord r js (genName c)]) hP.R with ⟨h1, h2⟩ | ⟨D, D', h1, h2, h3⟩
          · rw [h1, h2]; exact .inl ⟨rfl, rfl⟩
          · rw [h1, h2]
            simp only [h3.prog]
            by_cases hs : Fold.safeByRev f e.o e.ops e.inf k D'.prog (revRule r (absorb e.vord r js (genName c)) js) {i} 0 ≠ some true
            · rw [if_pos hs, if_pos hs]; exact .inl ⟨rfl, rfl⟩
            rw [if_neg hs, if_neg hs]
            · rcases foldM_same (e := e) (f := f) (k := k) (id := (Q :: M).length + 1) (j := 0) (r := revRule r (absorb e.vord r js (genName c)) js) (S := {i}) h3 h3 with ⟨h4, h5⟩ | ⟨R, R', h4, h5, h6⟩
              · rw [h4, h5]; exact .inl ⟨rfl, rfl⟩
              · rw [h4, h5]; exact .inr ⟨_, _, rfl, rfl, .cons ⟨h6, rfl, rfl, rfl⟩ (.cons ⟨h3, rfl, rfl, rfl⟩ hall)⟩
    | fold f k d r S j =>
      simp only [step, unit, hlen]
      have hd : ((P :: L)[d]? = none ∧ (Q :: M)[d]? = none) ∨ ∃ D D', (P :: L)[d]? = some D ∧ (Q :: M)[d]? = some D' ∧ SameS D D' := by
        by_cases hd : d < (P :: L).length
        · exact .inr ⟨_, _, List.getElem?_eq_getElem hd, List.getElem?_eq_getElem (hlen ▸ hd), List.Forall₂.get hall hd (hlen ▸ hd)⟩
        · exact .inl ⟨List.getElem?_eq_none_iff.2 (by omega), List.getElem?_eq_none_iff.2 (by omega)⟩
      rcases hd with ⟨h1, h2⟩ | ⟨D, D', h1, h2, h3⟩
      · rw [h1, h2]; exact .inl ⟨rfl, rfl⟩
      · rw [h1, h2]
        simp only [h3.defIx]
        split
        · exact .inl ⟨rfl, rfl⟩
        · rcases foldM_same (e := e) (f := f) (k := k) (id := (Q :: M).length) (j := j) (r := r) (S := S) hP.R h3.R with ⟨h4, h5⟩ | ⟨R, R', h4, h5, h6⟩
          · rw [h4, h5]; exact .inl ⟨rfl, rfl⟩
          · rw [h4, h5]; exact .inr ⟨_, _, rfl, rfl, .cons ⟨h6, rfl, hP.base, hP.c⟩ hall⟩

theorem run_same (e : Env W S') (a : Nat → Int) (root : Prog W) (c : Nat) : ∀ ms, SameL (run { e with sym := true } (fun _ => 1) root c ms) (run (unit e) a root c ms)
  | [] => .inr ⟨_, _, rfl, rfl, .cons ⟨addRef_same, rfl, rfl, rfl⟩ .nil⟩
  | m :: ms => by
    simp only [SearchMoves.run]
    rcases run_same e a root c ms with ⟨h1, h2⟩ | ⟨L, M, h1, h2, h3⟩
    · rw [h1, h2]; exact .inl ⟨rfl, rfl⟩
    · rw [h1, h2]; exact step_same h3 m

/-- `safe_by_unit` is what the constraints say when all unknowns are 1. -/
theorem safeByUnit_iff (e : Env W S') (root : Prog W) (c : Nat) (ms : List (Move W)) (b : Bool) :
    safeByUnit e root c ms = some b ↔ ∃ P L, run { e with sym := true } (fun _ => 1) root c ms = some (P :: L) ∧ P.R.ok = b := by
  unfold safeByUnit
  rcases run_same e (fun _ => 0) root c ms with ⟨h1, h2⟩ | ⟨L, M, h1, h2, h3⟩
  · rw [h1, h2]; simp
  · rw [h1, h2]
    cases h3 with
    | nil => simp
    | cons h _ => simp [h.R.ok]

/-- What the unit measure accepts, the symbolic measure accepts. -/
theorem C93_below (e : Env W S') (root : Prog W) (c : Nat) {ms : List (Move W)} (h : safeByUnit e root c ms = some true) : safeBySmt e root c ms = true := by
  obtain ⟨P, L, h1, h2⟩ := (safeByUnit_iff e root c ms true).1 h
  simp only [safeBySmt, decide_eq_true_eq]
  exact ⟨_, P, L, h1, h2⟩

end

section
variable [OSemi W] [DecidableEq W] {S' : Type} [DecidableEq S']

theorem rulesOf_sym (e : Env W S') (root : Prog W) (c : Nat) (ms : List (Move W)) : rulesOf { e with sym := true } root c ms = rulesOf e root c ms := by
  cases he : e.sym with
  | true => rw [show ({ e with sym := true } : Env W S') = e by cases e; cases he; rfl]
  | false =>
    have hu : unit e = e := by cases e; cases he; rfl
    unfold rulesOf
    rcases run_alike { e with sym := true } (fun _ => 0) (fun _ => 1) root c ms with ⟨h1, h2⟩ | ⟨L, M, h1, h2, h3⟩
    · rcases run_same e (fun _ => 0) root c ms with ⟨h4, h5⟩ | ⟨L', M', h4, h5, h6⟩
      · rw [hu] at h5; rw [h1, h5]
      · rw [h2] at h4; cases h4
    · rcases run_same e (fun _ => 0) root c ms with ⟨h4, h5⟩ | ⟨L', M', h4, h5, h6⟩
      · rw [h2] at h4; cases h4
      · rw [h2] at h4; cases h4
        rw [hu] at h5; rw [h1, h5]
        cases h3 with
        | nil => cases h6; rfl
        | cons h7 _ =>
          cases h6 with
          | cons h8 _ => simp only [h7.R.prog, h8.R.prog]

/-- What the unit measure accepts has the values of the original program. -/
theorem C93_sound {e : Env W S'} {root : Prog W} {c0 : Nat} (hS : Setup e root c0) {ms : List (Move W)} (hF : AllFit { e with sym := true } (fun _ => 1) root c0 ms)
    (h : safeByUnit e root c0 ms = some true) : Agrees e.ops root c0 (rulesOf e root c0 ms) := by
  obtain ⟨P, L, h1, h2⟩ := (safeByUnit_iff e root c0 ms true).1 h
  have hS' : Setup { e with sym := true } root c0 := ⟨hS.same, hS.order, hS.picks, hS.inf, hS.vars, hS.gen, hS.rules, hS.fresh⟩
  have := C85_sound hS' hF h1 h2
  rwa [← rulesOf_sym e root c0 ms, C85_rules { e with sym := true } _ root c0 ms h1]

end

section Examples
open Measure (pr)
open Unfold (ltOps)
open Collect (loopP)

/-- fold `goal += b * c` by `z += b * c` -/
def onceMs : List (Move TV) := [.fold 40 0 0 (pr ("goal", ["z"])) {0} 0]

/-- The unit measure rejects programs that the symbolic measure accepts: `goal += b * c.  z += b * c.` with `goal` folded by the rule of `z` needs a rule of `goal` that is
larger than that of `z`. -/
theorem C93_incomplete : safeByUnit demoE loopP 0 onceMs = some false ∧ safeBySmt demoE loopP 0 onceMs = true ∧
    rulesOf demoE loopP 0 onceMs = [("goal", ["z"]), ("z", ["b", "c"])].map pr := by
  refine ⟨by decide +kernel, ?_, by decide +kernel⟩
  have h : ((SearchMoves.run { demoE with sym := true } (fun i => if i = 0 then 2 else 1) loopP 0 onceMs).bind List.head?).map (fun P => P.R.ok) = some true := by decide +kernel
  simp only [safeBySmt, decide_eq_true_eq]
  cases hr : SearchMoves.run { demoE with sym := true } (fun i => if i = 0 then 2 else 1) loopP 0 onceMs with
  | none => rw [hr] at h; cases h
  | some L =>
    cases L with
    | nil => rw [hr] at h; cases h
    | cons P L =>
      rw [hr] at h
      exact ⟨_, P, L, hr, by simpa using h⟩

-- a naming, a fold and an unfolding that the unit measure accepts
example : safeByUnit demoE demoP 0 demoMs = some true := by decide +kernel
example : Agrees ltOps demoP 0 (rulesOf demoE demoP 0 demoMs) := C93_sound demo_setup demo_fit (by decide +kernel)

end Examples

end UnitMeasure
end Verif
