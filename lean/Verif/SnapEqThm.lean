/-
Property C51: replacing equality subgoals by their most general unifier keeps the instances of a rule.
-/
import Verif.SnapEq
import Verif.TermToolsThm
import Verif.UnifyThm
import Verif.SolverThm

set_option linter.unusedSectionVars false
set_option linter.unusedSimpArgs false

namespace Verif
open Tm Heap
open Solver (noHeap good_noHeap respects_noHeap)
namespace SnapEq
variable {K : Type}

/-! ### Specification -/

/-- the subgoal `x = y` -/
def eqLit (x y : Tm) : Lit K := .sub (.app [.con (.str "="), x, y])

/-- an equality subgoal (of whatever arity) -/
def IsEq (l : Lit K) : Prop := ∃ as, l = .sub (.app (.con (.str "=") :: as))

/-- all equalities of the body hold under `θ` -/
def Eqs (θ : Nat → Tm) (b : List (Lit K)) : Prop := ∀ x y, eqLit x y ∈ b → x.sub θ = y.sub θ

/-- an instance of a body element -/
def litSub (θ : Nat → Tm) : Lit K → Lit K
  | .val c => .val c
  | .sub t => .sub (t.sub θ)

open Classical in
/-- the body elements that are not equalities, in order -/
noncomputable def others (b : List (Lit K)) : List (Lit K) := b.filter fun l => ¬ IsEq l

/-- an instance of a rule, equalities left out -/
noncomputable def inst (θ : Nat → Tm) (r : WRule K) : Tm × List (Lit K) := (r.head.sub θ, (others r.body).map (litSub θ))

/-- variables of a body element -/
def litVars : Lit K → Finset Nat
  | .val _ => ∅
  | .sub t => vars t

/-- the variable occurs in the rule -/
def InR (r : WRule K) (n : Nat) : Prop := n ∈ vars r.head ∨ ∃ l ∈ r.body, n ∈ litVars l

/-- rules as written by the parser: functors are constants and equalities have two sides -/
def Proper (r : WRule K) : Prop :=
  (∀ t, Lit.sub t ∈ r.body → ∀ g as, t = .app (g :: as) → ∃ c, g = .con c) ∧
  (∀ l ∈ r.body, IsEq l → ∃ x y, l = eqLit x y)

/-! ### Lemmas -/

inductive BSpec (h : Heap) (b : List (Lit K)) : Option (List (Nat × Tm)) → Prop
  | fail : (∀ τ, Respects h τ → ¬ Eqs τ b) → BSpec h b none
  | ok (bs) : Good (bindAll h bs) → (∀ τ, Respects (bindAll h bs) τ ↔ Respects h τ ∧ Eqs τ b) →
      unbindAll bs (bindAll h bs) = h → BSpec h b (some bs)

theorem eqs_cons {θ : Nat → Tm} {l : Lit K} {b : List (Lit K)} :
    Eqs θ (l :: b) ↔ (∀ x y, l = eqLit x y → x.sub θ = y.sub θ) ∧ Eqs θ b := by
  constructor
  · intro h; exact ⟨fun x y e => h x y (by simp [e]), fun x y hm => h x y (by simp [hm])⟩
  · rintro ⟨h1, h2⟩ x y hm
    rcases List.mem_cons.1 hm with e | hm
    · exact h1 x y e.symm
    · exact h2 x y hm

theorem bspec_skip {h : Heap} {l : Lit K} {b : List (Lit K)} {r} (hl : ¬ IsEq l) (hs : BSpec h b r) : BSpec h (l :: b) r := by
  have : ∀ τ : Nat → Tm, Eqs τ (l :: b) ↔ Eqs τ b := fun τ => by
    rw [eqs_cons]
    exact ⟨fun h => h.2, fun h => ⟨fun x y e => (hl ⟨_, e⟩).elim, h⟩⟩
  cases hs with
  | fail hf => exact .fail fun τ h1 h2 => hf τ h1 ((this τ).1 h2)
  | ok bs g s u => exact .ok bs g (fun τ => by rw [s, this]) u

theorem snap_run : ∀ (b : List (Lit K)) {h : Heap}, Good h →
    (∀ t, Lit.sub t ∈ b → ∀ g as, t = .app (g :: as) → ∃ c, g = .con c) →
    (∀ l ∈ b, IsEq l → ∃ x y, l = eqLit x y) →
    ∃ r, BSpec h b r ∧ Evt (fun f => ∀ (S : Type) (k : List (Lit K) → Body S) s, snapF f b k h s = run r (k (others b)) h s) := by
  intro b
  induction b with
  | nil =>
    intro h hg _ _
    refine ⟨some [], .ok [] hg (fun τ => ⟨fun h => ⟨h, fun x y hm => by simp at hm⟩, fun h => h.1⟩) rfl, .of_all fun f S k s => ?_⟩
    simp only [snapF, run, bindAll, unbindAll, others, List.filter_nil]
    cases k [] h s with
    | none => rfl
    | some q => rfl
  | cons l b ih =>
    intro h hg hf he
    have hf' : ∀ t, Lit.sub t ∈ b → ∀ g as, t = .app (g :: as) → ∃ c, g = .con c := fun t ht => hf t (by simp [ht])
    have he' : ∀ l ∈ b, IsEq l → ∃ x y, l = eqLit x y := fun l hl => he l (by simp [hl])
    by_cases hl : IsEq l
    · obtain ⟨x, y, rfl⟩ := he l (by simp) hl
      have ho : others (eqLit x y :: b : List (Lit K)) = others b := by
        unfold others; rw [List.filter_cons_of_neg]; simpa using hl
      obtain ⟨r1, s1, e1⟩ := unify_result hg x y
      obtain ⟨Q, hQ⟩ := hg.eqF eqFn eqFn
      cases s1 with
      | fail hfail =>
        refine ⟨none, .fail fun τ h1 h2 => hfail τ h1 (h2 x y (by simp)), ?_⟩
        obtain ⟨N, hN⟩ := e1
        refine ⟨max N Q, fun f hf S k s => ?_⟩
        have hQ' := hQ f (by omega)
        simp only [decide_true] at hQ'
        simp only [eqLit, snapF]
        rw [show eqF h f (.con (.str "=")) eqFn = some true from hQ']
        simp only [hN f (by omega), run]
      | ok bs g1 q1 n1 d1 v1 =>
        obtain ⟨r2, s2, e2⟩ := ih g1 hf' he'
        have hu1 : unbindAll bs (bindAll h bs) = h := unbindAll_bindAll n1 fun p hp => by
          have := d1 p hp
          simp only [Finset.mem_union] at this
          rcases this with hz | hz
          · exact hg.vars_res hz
          · exact hg.vars_res hz
        obtain ⟨N, hN⟩ := e1
        obtain ⟨M, hM⟩ := e2
        have hEq : ∀ τ : Nat → Tm, Eqs τ (eqLit x y :: b) ↔ x.sub τ = y.sub τ ∧ Eqs τ b := fun τ => by
          rw [eqs_cons]
          refine and_congr_left fun _ => ⟨fun h => h x y rfl, fun h x' y' e => ?_⟩
          simp only [eqLit, Lit.sub.injEq, Tm.app.injEq, List.cons.injEq, true_and, and_true] at e
          rw [← e.1, ← e.2]; exact h
        cases s2 with
        | fail hfail =>
          refine ⟨none, .fail fun τ h1 h2 => ?_, max Q (max N M), fun f hf S k s => ?_⟩
          · rw [hEq] at h2
            exact hfail τ ((q1 τ).2 ⟨h1, h2.1⟩) h2.2
          · have hQ' := hQ f (by omega)
            simp only [decide_true] at hQ'
            simp only [eqLit, snapF]
            rw [show eqF h f (.con (.str "=")) eqFn = some true from hQ']
            simp only [hN f (by omega), run, hM f (by omega), hu1]
        | ok cs g2 q2 u2 =>
          refine ⟨some (bs ++ cs), .ok _ (by rw [bindAll_append]; exact g2) (fun τ => ?_) ?_, max Q (max N M), fun f hf S k s => ?_⟩
          · rw [bindAll_append, q2, q1, hEq, and_assoc]
          · rw [bindAll_append, unbindAll_append, u2, hu1]
          · have hQ' := hQ f (by omega)
            simp only [decide_true] at hQ'
            simp only [eqLit, snapF]
            rw [show eqF h f (.con (.str "=")) eqFn = some true from hQ', ← run_append]
            simp only [hN f (by omega), run, hM f (by omega)]
            rw [show others (.sub (.app [.con (.str "="), x, y]) :: b : List (Lit K)) = others b from ho]
    · obtain ⟨r, s1, e1⟩ := ih hg hf' he'
      have ho : others (l :: b) = l :: others b := by
        unfold others; rw [List.filter_cons_of_pos]; simpa using hl
      refine ⟨r, bspec_skip hl s1, ?_⟩
      obtain ⟨N, hN⟩ := e1
      rw [ho]
      have plain : (∀ g as, l ≠ .sub (.app (g :: as))) → Evt (fun f => ∀ (S : Type) (k : List (Lit K) → Body S) s,
          snapF f (l :: b) k h s = run r (k (l :: others b)) h s) := by
        intro hne
        refine ⟨N, fun f hf S k s => ?_⟩
        rw [snapF.eq_def]; simp only
        exact hN f hf S _ s
      cases l with
      | val c => exact plain (by simp)
      | sub t =>
        cases t with
        | var n => exact plain (by simp)
        | con c => exact plain (by simp)
        | app as =>
          cases as with
          | nil => exact plain (by simp)
          | cons g as =>
            obtain ⟨c, rfl⟩ := hf _ List.mem_cons_self g as rfl
            have hc : Tm.con c ≠ eqFn := by
              intro e; exact hl ⟨as, by rw [e]⟩
            obtain ⟨Q, hQ⟩ := hg.eqF (.con c) eqFn
            refine ⟨max N Q, fun f hf S k s => ?_⟩
            have hQ' := hQ f (by omega)
            simp only [sub_con, hc, decide_false] at hQ'
            rw [snapF.eq_def]
            simp only [hQ', hN f (by omega)]

theorem push_evt {h : Heap} (hg : Good h) (head : Tm) (ys : List (Lit K)) :
    Evt (fun f => ∀ s, push f head ys h s = some (h, s ++ [⟨head.sub (res h), ys.map (litSub (res h))⟩], .done)) := by
  have hb : Evt (fun f => allSome (ys.map (derefLit h f)) = some (ys.map (litSub (res h)))) := by
    induction ys with
    | nil => exact .of_all fun f => rfl
    | cons l ys ih =>
      cases l with
      | val c => exact ih.mono fun f e => by simp only [List.map_cons, derefLit, allSome, e, Option.map_some, litSub]
      | sub t =>
        refine (ih.and (hg.evt_deref t)).mono fun f e => ?_
        simp only [List.map_cons, derefLit, e.2, Option.map_some, allSome, e.1, litSub]
  refine (hb.and (hg.evt_deref head)).mono fun f e s => ?_
  simp only [push, e.1, e.2]

/-- ground substitutions -/
def GroundSub (θ : Nat → Tm) : Prop := ∀ n, Ground (θ n)

/-- an instance of a rule, all of its body -/
def instAll (θ : Nat → Tm) (r : WRule K) : Tm × List (Lit K) := (r.head.sub θ, r.body.map (litSub θ))

/-- what snapping one rule may produce -/
structure Snapped (r : WRule K) (L : List (WRule K)) : Prop where
  one : L.length ≤ 1
  drop : L = [] ↔ ∀ θ, ¬ Eqs θ r.body
  keep : ∀ r' ∈ L, ∀ θ, Eqs θ r.body → inst θ r = instAll θ r'
  back : ∀ r' ∈ L, ∀ θ', ∃ θ, Eqs θ r.body ∧ inst θ r = instAll θ' r' ∧ (GroundSub θ' → GroundSub θ) ∧
    ∀ n, InR r' n → θ n = θ' n

theorem litSub_comp (σ θ : Nat → Tm) (l : Lit K) : litSub θ (litSub σ l) = litSub (fun n => (σ n).sub θ) l := by
  cases l with
  | val c => rfl
  | sub t => simp only [litSub, Tm.sub_sub]

theorem litSub_congr {σ θ : Nat → Tm} {l : Lit K} (h : ∀ n ∈ litVars l, σ n = θ n) : litSub σ l = litSub θ l := by
  cases l with
  | val c => rfl
  | sub t => simp only [litSub]; rw [sub_congr h]

theorem snap_rule {r : WRule K} (hp : Proper r) :
    ∃ L, Snapped r L ∧ Evt (fun f => ∀ s, snapF f r.body (push f r.head) noHeap s = some (noHeap, s ++ L, .done)) := by
  obtain ⟨q, hs, he⟩ := snap_run r.body good_noHeap hp.1 hp.2
  cases hs with
  | fail hf =>
    refine ⟨[], ⟨by simp, by simpa using fun θ => hf θ (respects_noHeap θ), by simp, by simp⟩, he.mono fun f e s => ?_⟩
    rw [e]; simp [run]
  | ok bs g q u =>
    have hEq : Eqs (res (bindAll noHeap bs)) r.body := ((q _).1 g.respects_res).2
    refine ⟨[⟨r.head.sub (res (bindAll noHeap bs)), (others r.body).map (litSub (res (bindAll noHeap bs)))⟩],
      ⟨by simp, by simpa using ⟨_, hEq⟩, ?_, ?_⟩, ?_⟩
    · intro r' hr' θ hθ
      simp only [List.mem_singleton] at hr'
      subst hr'
      have hR := (q θ).2 ⟨respects_noHeap θ, hθ⟩
      have hS : ∀ t : Tm, (t.sub (res (bindAll noHeap bs))).sub θ = t.sub θ := fun t => g.sub_res hR t
      simp only [inst, instAll, hS, List.map_map, Prod.mk.injEq, true_and]
      apply List.map_congr_left
      intro l _
      cases l with
      | val c => rfl
      | sub t => simp only [Function.comp, litSub, hS]
    · intro r' hr' θ'
      simp only [List.mem_singleton] at hr'
      subst hr'
      refine ⟨fun n => (res (bindAll noHeap bs) n).sub θ', ?_, ?_, ?_, ?_⟩
      · intro x y hm
        rw [← Tm.sub_sub, ← Tm.sub_sub, hEq x y hm]
      · simp only [inst, instAll, Tm.sub_sub, List.map_map, Prod.mk.injEq, true_and]
        apply List.map_congr_left
        intro l _
        simp only [Function.comp, litSub_comp]
      · intro h n
        have : vars ((res (bindAll noHeap bs) n).sub θ') = ∅ := by
          rw [Finset.eq_empty_iff_forall_notMem]
          intro x hx
          rw [mem_vars_sub] at hx
          obtain ⟨y, _, hy⟩ := hx
          have := h y
          unfold Ground at this
          rw [this] at hy; simp at hy
        exact this
      · intro n hn
        have : (bindAll noHeap bs) n = none := by
          rcases hn with hn | ⟨l, hl, hn⟩
          · exact g.vars_res hn
          · simp only [List.mem_map] at hl
            obtain ⟨l, _, rfl⟩ := hl
            cases l with
            | val c => simp [litSub, litVars] at hn
            | sub t => exact g.vars_res hn
        simp [res_unbound this]
    · refine (he.and (push_evt g r.head (others r.body))).mono fun f e s => ?_
      rw [e.1]
      simp only [run, e.2, u]

/-! ### Property C51 -/

/-- `snap_unifications` on a program works rule by rule: in order, every rule is replaced by nothing or by
one rule, related to it as `Snapped` says. -/
theorem C51_program (rs : List (WRule K)) (hp : ∀ r ∈ rs, Proper r) :
    ∃ Ls : List (List (WRule K)), List.Forall₂ Snapped rs Ls ∧
      ∃ N, ∀ f ≥ N, snapProg f rs noHeap [] = some (noHeap, Ls.flatten, .done) := by
  suffices H : ∃ Ls : List (List (WRule K)), List.Forall₂ Snapped rs Ls ∧
      Evt (fun f => ∀ s, snapProg f rs noHeap s = some (noHeap, s ++ Ls.flatten, .done)) by
    obtain ⟨Ls, h1, N, hN⟩ := H
    exact ⟨Ls, h1, N, fun f hf => by simpa using hN f hf []⟩
  induction rs with
  | nil => exact ⟨[], .nil, .of_all fun f s => by simp [snapProg]⟩
  | cons r rs ih =>
    obtain ⟨L, h1, e1⟩ := snap_rule (hp r (by simp))
    obtain ⟨Ls, h2, e2⟩ := ih fun r hr => hp r (by simp [hr])
    refine ⟨L :: Ls, .cons h1 h2, (e1.and e2).mono fun f e s => ?_⟩
    simp only [snapProg, e.1, e.2, List.flatten_cons, List.append_assoc]

/-- The ground instances of a rule that make its equalities true are the ground instances of what the
rule is replaced by; the rule disappears exactly when there are none. -/
theorem C51_ground_instances {r : WRule K} (hp : Proper r) :
    ∃ L, (∃ N, ∀ f ≥ N, snapProg f [r] noHeap [] = some (noHeap, L, .done)) ∧
      {i | ∃ θ, GroundSub θ ∧ Eqs θ r.body ∧ i = inst θ r} = {i | ∃ r' ∈ L, ∃ θ, GroundSub θ ∧ i = instAll θ r'} ∧
      (L = [] ↔ ¬ ∃ θ, GroundSub θ ∧ Eqs θ r.body) := by
  obtain ⟨Ls, hL, N, hN⟩ := C51_program [r] (by simpa using hp)
  cases hL with
  | @cons _ L _ _ h1 h2 =>
  cases h2
  refine ⟨L, ⟨N, fun f hf => by simpa using hN f hf⟩, ?_, ?_⟩
  · ext i
    constructor
    · rintro ⟨θ, hg, he, rfl⟩
      cases L with
      | nil => exact ((h1.drop.1 rfl) θ he).elim
      | cons r' L => exact ⟨r', by simp, θ, hg, h1.keep r' (by simp) θ he⟩
    · rintro ⟨r', hr', θ', hg, rfl⟩
      obtain ⟨θ, a, b, c, _⟩ := h1.back r' hr' θ'
      exact ⟨θ, c hg, a, b.symm⟩
  · constructor
    · rintro hL ⟨θ, _, he⟩
      exact h1.drop.1 hL θ he
    · intro hn
      by_contra hne
      obtain ⟨r', hr'⟩ := List.exists_mem_of_ne_nil L hne
      obtain ⟨θ, a, _, c, _⟩ := h1.back r' hr' fun _ => .con (.int 0)
      exact hn ⟨θ, c (fun n => by simp [Ground]), a⟩

/-- the values of all variables of the rule follow from those outside the equalities -/
def Determined (r : WRule K) : Prop :=
  ∀ θ θ', Eqs θ r.body → Eqs θ' r.body → inst θ r = inst θ' r → ∀ n, InR r n → θ n = θ' n

/-- If the variables of the rule are determined by those outside its equalities, then no two different
ground instances of the rule are mapped to the same one of its replacement (so sums over all
instances are unchanged as well). -/
theorem C51_one_to_one {r : WRule K} (hp : Proper r) (hd : Determined r) :
    ∃ L, (∃ N, ∀ f ≥ N, snapProg f [r] noHeap [] = some (noHeap, L, .done)) ∧
      ∀ r' ∈ L, ∀ θ θ', Eqs θ r.body → Eqs θ' r.body → ((∀ n, InR r n → θ n = θ' n) ↔ ∀ n, InR r' n → θ n = θ' n) := by
  obtain ⟨Ls, hL, N, hN⟩ := C51_program [r] (by simpa using hp)
  cases hL with
  | @cons _ L _ _ h1 h2 =>
  cases h2
  refine ⟨L, ⟨N, fun f hf => by simpa using hN f hf⟩, fun r' hr' θ θ' h h' => ?_⟩
  have congr' : ∀ {σ τ : Nat → Tm}, (∀ n, InR r' n → σ n = τ n) → instAll σ r' = instAll τ r' := by
    intro σ τ hστ
    simp only [instAll, Prod.mk.injEq]
    exact ⟨sub_congr fun n hn => hστ n (.inl hn), List.map_congr_left fun l hl => litSub_congr fun n hn => hστ n (.inr ⟨l, hl, hn⟩)⟩
  constructor
  · intro hag
    have e : instAll θ r' = instAll θ' r' := by
      rw [← h1.keep r' hr' θ h, ← h1.keep r' hr' θ' h']
      simp only [inst, Prod.mk.injEq]
      refine ⟨sub_congr fun n hn => hag n (.inl hn), List.map_congr_left fun l hl => litSub_congr fun n hn => hag n (.inr ⟨l, ?_, hn⟩)⟩
      exact (List.mem_filter.1 hl).1
    simp only [instAll, Prod.mk.injEq] at e
    intro n hn
    rcases hn with hn | ⟨l, hl, hn⟩
    · exact sub_eq_on_vars e.1 n hn
    · have := List.map_inj_left.1 e.2 l hl
      cases l with
      | val c => simp [litVars] at hn
      | sub t => simp only [litSub, Lit.sub.injEq] at this; exact sub_eq_on_vars this n hn
  · intro hag
    exact hd θ θ' h h' (by rw [h1.keep r' hr' θ h, h1.keep r' hr' θ' h', congr' hag])

section Examples
private def t (f : String) (as : List Tm) : Tm := .app (.con (.str f) :: as)

/-- `goal(X) += f(X,Y) * (Y = g(Z)) * h(Z).` -/
private def r1 : WRule Nat := ⟨t "goal" [.var 0], [.sub (t "f" [.var 0, .var 1]), eqLit (.var 1) (t "g" [.var 2]), .sub (t "h" [.var 2])]⟩
-- ... becomes `goal(X) += f(X,g(Z)) * h(Z).`
example : (snapProg 20 [r1] noHeap []).map (fun q => q.2.1) =
    some [⟨t "goal" [.var 0], [.sub (t "f" [.var 0, t "g" [.var 2]]), .sub (t "h" [.var 2])]⟩] := by decide +kernel
example : Proper r1 := by
  refine ⟨?_, ?_⟩
  · intro u hu g as e
    subst e
    simp only [r1, eqLit, t, List.mem_cons, Lit.sub.injEq, Tm.app.injEq, List.cons.injEq, List.not_mem_nil, or_false] at hu
    rcases hu with h | h | h <;> exact ⟨_, h.1⟩
  · intro l hl he
    simp only [r1, List.mem_cons, List.not_mem_nil, or_false] at hl
    rcases hl with rfl | rfl | rfl
    · obtain ⟨as, h⟩ := he; simp [t] at h
    · exact ⟨_, _, rfl⟩
    · obtain ⟨as, h⟩ := he; simp [t] at h
example : Determined r1 := by
  intro θ θ' _ _ h n hn
  have ho : others r1.body = [.sub (t "f" [.var 0, .var 1]), .sub (t "h" [.var 2])] := by
    simp only [others, r1, t]
    rw [List.filter_cons_of_pos, List.filter_cons_of_neg, List.filter_cons_of_pos, List.filter_nil] <;>
      simp [IsEq, eqLit]
  simp only [inst, ho, List.map_cons, List.map_nil, litSub, t, sub_app, sub_con, sub_var, Prod.mk.injEq, List.cons.injEq,
    Lit.sub.injEq, Tm.app.injEq, true_and, and_true] at h
  have : n = 0 ∨ n = 1 ∨ n = 2 := by
    rcases hn with hn | ⟨l, hl, hn⟩
    · simp [r1, t] at hn; exact .inl hn
    · simp only [r1, List.mem_cons, List.not_mem_nil, or_false] at hl
      rcases hl with rfl | rfl | rfl <;> simp [litVars, t, eqLit] at hn <;> omega
  rcases this with rfl | rfl | rfl
  · exact h.2.1.1
  · exact h.2.1.2
  · exact h.2.2
-- an unsatisfiable equality drops the rule
example : (snapProg 20 [(⟨t "goal" [], [eqLit (t "a" []) (t "b" [])]⟩ : WRule Nat)] noHeap []).map (fun q => q.2.1) = some [] := by
  decide +kernel

/-- **Violation.**  Without `Determined` the number of instances changes: `goal += (X = Y)` has one instance for
every ground term, its replacement `goal` has only one. -/
theorem C51_multiplicity_lost :
    let r : WRule Nat := ⟨t "goal" [], [eqLit (.var 0) (.var 1)]⟩
    Proper r ∧ (snapProg 20 [r] noHeap []).map (fun q => q.2.1) = some [⟨t "goal" [], []⟩] ∧
      ∀ u : Tm, ∃ θ : Nat → Tm, Eqs θ r.body ∧ θ 0 = u := by
  refine ⟨⟨?_, ?_⟩, by decide +kernel, fun u => ⟨fun _ => u, ?_, rfl⟩⟩
  · intro v hv g as e
    subst e
    simp only [eqLit, List.mem_singleton, Lit.sub.injEq, Tm.app.injEq, List.cons.injEq] at hv
    exact ⟨_, hv.1⟩
  · intro l hl _
    simp only [List.mem_singleton] at hl
    exact ⟨_, _, hl⟩
  · intro x y hm
    simp only [eqLit, List.mem_singleton, Lit.sub.injEq, Tm.app.injEq, List.cons.injEq, true_and, and_true] at hm
    rw [hm.1, hm.2]; simp
end Examples

end SnapEq
end Verif
