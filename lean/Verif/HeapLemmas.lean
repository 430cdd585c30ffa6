/-
Lemmas about the store model: dereferencing, equality and occurs checks.
-/
import Verif.Heap
import Mathlib.Tactic.Tauto

set_option linter.unusedSectionVars false
set_option linter.unusedSimpArgs false

namespace Verif
open Tm

/-- `p` holds for all large enough fuel. -/
def Evt (p : Nat → Prop) : Prop := ∃ N, ∀ f, N ≤ f → p f

namespace Evt
theorem of_all {p : Nat → Prop} (h : ∀ f, p f) : Evt p := ⟨0, fun f _ => h f⟩
theorem of_succ {p : Nat → Prop} (h : ∀ f, p (f + 1)) : Evt p :=
  ⟨1, fun f hf => by obtain ⟨g, rfl⟩ : ∃ g, f = g + 1 := ⟨f - 1, by omega⟩; exact h g⟩
theorem mono {p q : Nat → Prop} (h : Evt p) (hpq : ∀ f, p f → q f) : Evt q := by
  obtain ⟨N, hN⟩ := h; exact ⟨N, fun f hf => hpq f (hN f hf)⟩
theorem and {p q : Nat → Prop} (hp : Evt p) (hq : Evt q) : Evt (fun f => p f ∧ q f) := by
  obtain ⟨N, hN⟩ := hp; obtain ⟨M, hM⟩ := hq
  exact ⟨max N M, fun f hf => ⟨hN f (by omega), hM f (by omega)⟩⟩
theorem succ {p : Nat → Prop} (h : Evt (fun f => p (f + 1))) : Evt p := by
  obtain ⟨N, hN⟩ := h
  refine ⟨N + 1, fun f hf => ?_⟩
  obtain ⟨g, rfl⟩ : ∃ g, f = g + 1 := ⟨f - 1, by omega⟩
  exact hN g (by omega)
theorem shift {p : Nat → Prop} (h : Evt p) : Evt (fun f => p (f + 1)) := by
  obtain ⟨N, hN⟩ := h; exact ⟨N, fun f hf => hN _ (by omega)⟩
theorem exists' {p : Nat → Prop} (h : Evt p) : ∃ f, p f := by
  obtain ⟨N, hN⟩ := h; exact ⟨N, hN N (le_refl _)⟩
end Evt

namespace Heap

theorem allSome_eq_some {α : Type*} {l : List (Option α)} {r : List α} :
    allSome l = some r ↔ l = r.map some := by
  induction l generalizing r with
  | nil => cases r <;> simp [allSome]
  | cons a l ih =>
    cases a with
    | none => cases r <;> simp [allSome]
    | some a =>
      simp only [allSome, Option.map_eq_some_iff]
      cases r with
      | nil => simp
      | cons b r =>
        simp only [List.map_cons, List.cons.injEq, Option.some.injEq]
        constructor
        · rintro ⟨l', h1, h2, h3⟩; subst h3; exact ⟨h2, ih.1 h1⟩
        · rintro ⟨h1, h2⟩; exact ⟨r, ih.2 h2, h1, rfl⟩

theorem deref_app {h : Heap} {f : Nat} {as : List Tm} {t : Tm} :
    derefF h (f + 1) (.app as) = some t ↔
      ∃ as', t = .app as' ∧ List.Forall₂ (fun a a' => derefF h f a = some a') as as' := by
  simp only [derefF, Option.map_eq_some_iff, allSome_eq_some]
  constructor
  · rintro ⟨as', h1, rfl⟩
    refine ⟨as', rfl, ?_⟩
    induction as generalizing as' with
    | nil => cases as' <;> simp_all
    | cons a as ih =>
      cases as' with
      | nil => simp at h1
      | cons a' as' => simp only [List.map_cons, List.cons.injEq] at h1; exact .cons h1.1 (ih _ h1.2)
  · rintro ⟨as', rfl, h⟩
    refine ⟨as', ?_, rfl⟩
    induction h with
    | nil => rfl
    | cons h1 _ ih => simp [h1, ih]

theorem deref_mono1 {h : Heap} : ∀ {f : Nat} {t t' : Tm}, derefF h f t = some t' →
    derefF h (f + 1) t = some t' := by
  intro f
  induction f with
  | zero => intro t t' e; simp [derefF] at e
  | succ f ih =>
    intro t t' e
    cases t with
    | var n =>
      cases hn : h n with
      | none => simp [derefF, hn] at e ⊢; exact e
      | some u => simp only [derefF, hn] at e; have := ih e; simp only [derefF, hn] at this ⊢; exact this
    | con c => simp [derefF] at e ⊢; exact e
    | app as =>
      rw [deref_app] at e ⊢
      obtain ⟨as', rfl, e⟩ := e
      exact ⟨as', rfl, e.imp fun a a' h => ih h⟩

theorem deref_mono {h : Heap} {f g : Nat} {t t' : Tm} (e : derefF h f t = some t') (hfg : f ≤ g) :
    derefF h g t = some t' := by
  induction hfg with
  | refl => exact e
  | step _ ih => exact deref_mono1 ih

theorem deref_unique {h : Heap} {f g : Nat} {t t1 t2 : Tm} (e1 : derefF h f t = some t1)
    (e2 : derefF h g t = some t2) : t1 = t2 := by
  have a := deref_mono e1 (le_max_left f g)
  have b := deref_mono e2 (le_max_right f g)
  rw [a] at b; exact Option.some.inj b

/-- Dereferencing terminates from every variable: the store has no cyclic bindings. -/
def Good (h : Heap) : Prop := ∀ n, ∃ f t, derefF h f (.var n) = some t

open Classical in
/-- What variable `n` stands for. -/
noncomputable def res (h : Heap) (n : Nat) : Tm :=
  if H : ∃ t, ∃ f, derefF h f (.var n) = some t then H.choose else .var n

theorem res_of_deref {h : Heap} {f : Nat} {n : Nat} {t : Tm} (e : derefF h f (.var n) = some t) :
    res h n = t := by
  have H : ∃ t, ∃ f, derefF h f (.var n) = some t := ⟨t, f, e⟩
  unfold res; rw [dif_pos H]
  obtain ⟨g, hg⟩ := H.choose_spec
  exact deref_unique hg e

theorem deref_eq_sub {h : Heap} : ∀ {f : Nat} {t t' : Tm}, derefF h f t = some t' → t' = t.sub (res h) := by
  intro f
  induction f with
  | zero => intro t t' e; simp [derefF] at e
  | succ f ih =>
    intro t t' e
    cases t with
    | var n => rw [sub_var]; exact (res_of_deref e).symm
    | con c => simp [derefF] at e; subst e; rfl
    | app as =>
      obtain ⟨as', rfl, ea⟩ := deref_app.1 e
      rw [sub_app]
      congr 1
      clear e
      induction ea with
      | nil => rfl
      | cons h1 _ ih2 => simp [ih h1, ih2]

theorem Good.deref {h : Heap} (hg : Good h) (t : Tm) : ∃ f, derefF h f t = some (t.sub (res h)) := by
  induction t using ind with
  | hv n =>
    obtain ⟨f, t, e⟩ := hg n
    exact ⟨f, by rw [e, deref_eq_sub e]⟩
  | hc c => exact ⟨1, rfl⟩
  | ha as ih =>
    have : ∃ f, List.Forall₂ (fun a a' => derefF h f a = some a') as (as.map (sub (res h))) := by
      induction as with
      | nil => exact ⟨0, .nil⟩
      | cons a as iha =>
        obtain ⟨f, hf⟩ := iha (fun t ht => ih t (by simp [ht]))
        obtain ⟨g, hgg⟩ := ih a (by simp)
        refine ⟨max f g, .cons (deref_mono hgg (le_max_right _ _)) ?_⟩
        exact hf.imp fun _ _ h => deref_mono h (le_max_left _ _)
    obtain ⟨f, hf⟩ := this
    exact ⟨f + 1, by rw [deref_app, sub_app]; exact ⟨_, rfl, hf⟩⟩

theorem Good.evt_deref {h : Heap} (hg : Good h) (t : Tm) :
    Evt (fun f => derefF h f t = some (t.sub (res h))) := by
  obtain ⟨f, hf⟩ := hg.deref t
  exact ⟨f, fun g hg => deref_mono hf hg⟩

theorem res_unbound {h : Heap} {n : Nat} (hn : h n = none) : res h n = .var n :=
  res_of_deref (f := 1) (by simp [derefF, hn])

theorem Good.res_bound {h : Heap} (hg : Good h) {n : Nat} {t : Tm} (hn : h n = some t) :
    res h n = t.sub (res h) := by
  obtain ⟨f, hf⟩ := hg.deref t
  exact res_of_deref (f := f + 1) (by simp [derefF, hn, hf])

/-- variables left in a dereferenced term are unbound -/
theorem deref_vars {h : Heap} : ∀ {f : Nat} {t t' : Tm}, derefF h f t = some t' →
    ∀ x ∈ vars t', h x = none := by
  intro f
  induction f with
  | zero => intro t t' e; simp [derefF] at e
  | succ f ih =>
    intro t t' e
    cases t with
    | var n =>
      cases hn : h n with
      | none => simp [derefF, hn] at e; subst e; simpa using hn
      | some u => simp only [derefF, hn] at e; exact ih e
    | con c => simp [derefF] at e; subst e; simp
    | app as =>
      obtain ⟨as', rfl, ea⟩ := deref_app.1 e
      intro x hx
      simp only [vars_app, mem_varsL] at hx
      obtain ⟨a', ha', hx⟩ := hx
      clear e
      induction ea with
      | nil => simp at ha'
      | cons h1 _ ih2 =>
        rcases List.mem_cons.1 ha' with rfl | ha'
        · exact ih h1 x hx
        · exact ih2 ha'

theorem Good.vars_res {h : Heap} (hg : Good h) {t : Tm} {x : Nat} (hx : x ∈ vars (t.sub (res h))) :
    h x = none := by
  obtain ⟨f, hf⟩ := hg.deref t
  exact deref_vars hf x hx

/-- An assignment of terms to variables consistent with the bindings in force. -/
def Respects (h : Heap) (τ : Nat → Tm) : Prop := ∀ n t, h n = some t → τ n = t.sub τ

theorem Good.respects_res {h : Heap} (hg : Good h) : Respects h (res h) :=
  fun _ _ hn => hg.res_bound hn

theorem Good.sub_res {h : Heap} (hg : Good h) {τ : Nat → Tm} (hτ : Respects h τ) (t : Tm) :
    (t.sub (res h)).sub τ = t.sub τ := by
  have : ∀ f t t', derefF h f t = some t' → t'.sub τ = t.sub τ := by
    intro f
    induction f with
    | zero => intro t t' e; simp [derefF] at e
    | succ f ih =>
      intro t t' e
      cases t with
      | var n =>
        cases hn : h n with
        | none => simp [derefF, hn] at e; subst e; rfl
        | some u => simp only [derefF, hn] at e; rw [ih _ _ e, sub_var, hτ n u hn]
      | con c => simp [derefF] at e; subst e; rfl
      | app as =>
        obtain ⟨as', rfl, ea⟩ := deref_app.1 e
        simp only [sub_app, Tm.app.injEq]
        clear e
        induction ea with
        | nil => rfl
        | cons h1 _ ih2 => simp [ih _ _ h1, ih2]
  obtain ⟨f, hf⟩ := hg.deref t
  exact this f t _ hf

/-! ### The equality test -/

theorem deref_cases {h : Heap} {f : Nat} {t t' : Tm} (e : derefF h f t = some t') :
    ∃ g, f = g + 1 := by
  cases f with
  | zero => simp [derefF] at e
  | succ g => exact ⟨g, rfl⟩

theorem eqLF_evt {h : Heap} {as bs as' bs' : List Tm} {f1 f2 : Nat}
    (ih : ∀ a b a' b', derefF h f1 a = some a' → derefF h f2 b = some b' →
      Evt (fun f => eqF h f a b = some (decide (a' = b'))))
    (ea : List.Forall₂ (fun a a' => derefF h f1 a = some a') as as')
    (eb : List.Forall₂ (fun a a' => derefF h f2 a = some a') bs bs') :
    Evt (fun f => eqLF h f as bs = some (decide (as' = bs'))) := by
  induction ea generalizing bs bs' with
  | nil =>
    cases eb with
    | nil => exact Evt.of_succ fun f => by simp [eqLF]
    | cons _ _ => exact Evt.of_succ fun f => by simp [eqLF]
  | cons h1 _ ih2 =>
    rename_i a a' as as' _
    cases eb with
    | nil => exact Evt.of_succ fun f => by simp [eqLF]
    | cons h3 h4 =>
      rename_i b b' bs bs'
      refine Evt.succ (((ih _ _ _ _ h1 h3).and (ih2 h4)).mono fun f hf => ?_)
      obtain ⟨e1, e2⟩ := hf
      simp only [eqLF, e1]
      by_cases hab : a' = b'
      · simp [hab, e2]
      · simp [hab]

theorem eqF_evt {h : Heap} : ∀ N f1 f2, f1 + f2 ≤ N → ∀ x y x' y', derefF h f1 x = some x' →
    derefF h f2 y = some y' → Evt (fun f => eqF h f x y = some (decide (x' = y'))) := by
  intro N
  induction N with
  | zero =>
    intro f1 f2 hN x y x' y' ex ey
    obtain ⟨g, rfl⟩ := deref_cases ex; omega
  | succ N ih =>
    intro f1 f2 hN x y x' y' ex ey
    obtain ⟨g1, rfl⟩ := deref_cases ex
    obtain ⟨g2, rfl⟩ := deref_cases ey
    cases x with
    | var n =>
      cases hn : h n with
      | some t =>
        simp only [derefF, hn] at ex
        refine Evt.succ ((ih g1 (g2 + 1) (by omega) t y x' y' ex ey).mono fun f e => ?_)
        simp only [eqF, hn]; exact e
      | none =>
        simp [derefF, hn] at ex; subst ex
        cases y with
        | var m =>
          cases hm : h m with
          | some t =>
            simp only [derefF, hm] at ey
            have ex' : derefF h 1 (.var n) = some (.var n) := by simp [derefF, hn]
            refine Evt.succ ((ih (g1 + 1) g2 (by omega) (.var n) t (.var n) y' ?_ ey).mono fun f e => ?_)
            · simp [derefF, hn]
            · simp only [eqF, hn, hm]; exact e
          | none =>
            simp [derefF, hm] at ey; subst ey
            refine Evt.of_succ fun f => ?_
            simp only [eqF, hn, hm, Tm.var.injEq]; rfl
        | con c =>
          simp [derefF] at ey; subst ey
          exact Evt.of_succ fun f => by simp [eqF, hn]
        | app bs =>
          obtain ⟨bs', rfl, _⟩ := deref_app.1 ey
          exact Evt.of_succ fun f => by simp [eqF, hn]
    | con c =>
      simp [derefF] at ex; subst ex
      cases y with
      | var m =>
        cases hm : h m with
        | some t =>
          simp only [derefF, hm] at ey
          refine Evt.succ ((ih (g1 + 1) g2 (by omega) (.con c) t (.con c) y' (by simp [derefF]) ey).mono fun f e => ?_)
          simp only [eqF, hm]; exact e
        | none =>
          simp [derefF, hm] at ey; subst ey
          exact Evt.of_succ fun f => by simp [eqF, hm]
      | con c' =>
        simp [derefF] at ey; subst ey
        refine Evt.of_succ fun f => ?_
        simp only [eqF, Tm.con.injEq]; rfl
      | app bs =>
        obtain ⟨bs', rfl, _⟩ := deref_app.1 ey
        exact Evt.of_succ fun f => by simp [eqF]
    | app as =>
      have ex0 := ex
      obtain ⟨as', rfl, ea⟩ := deref_app.1 ex
      cases y with
      | var m =>
        cases hm : h m with
        | some t =>
          simp only [derefF, hm] at ey
          refine Evt.succ ((ih (g1 + 1) g2 (by omega) (.app as) t _ y' ex0 ey).mono fun f e => ?_)
          simp only [eqF, hm]; exact e
        | none =>
          simp [derefF, hm] at ey; subst ey
          exact Evt.of_succ fun f => by simp [eqF, hm]
      | con c' =>
        simp [derefF] at ey; subst ey
        exact Evt.of_succ fun f => by simp [eqF]
      | app bs =>
        obtain ⟨bs', rfl, eb⟩ := deref_app.1 ey
        refine Evt.succ ((eqLF_evt (fun a b a' b' e1 e2 => ih g1 g2 (by omega) a b a' b' e1 e2) ea eb).mono fun f e => ?_)
        simp only [eqF, e, Tm.app.injEq]

theorem Good.eqF {h : Heap} (hg : Good h) (x y : Tm) :
    Evt (fun f => Heap.eqF h f x y = some (decide (x.sub (res h) = y.sub (res h)))) := by
  obtain ⟨f1, e1⟩ := hg.deref x
  obtain ⟨f2, e2⟩ := hg.deref y
  exact eqF_evt _ f1 f2 (le_refl _) _ _ _ _ e1 e2

/-! ### The occurs check -/

theorem occursLF_evt {h : Heap} {v : Nat} {as as' : List Tm} {f1 : Nat}
    (ih : ∀ a a', derefF h f1 a = some a' → Evt (fun f => occursF h f v a = some (decide (v ∈ vars a'))))
    (ea : List.Forall₂ (fun a a' => derefF h f1 a = some a') as as') :
    Evt (fun f => occursLF h f v as = some (decide (v ∈ varsL as'))) := by
  induction ea with
  | nil => exact Evt.of_succ fun f => by simp [occursLF]
  | cons h1 _ ih2 =>
    rename_i a a' as as' _
    refine Evt.succ (((ih _ _ h1).and ih2).mono fun f hf => ?_)
    obtain ⟨e1, e2⟩ := hf
    simp only [occursLF, e1]
    by_cases hab : v ∈ vars a'
    · simp [hab]
    · simp [hab, e2]

theorem occursF_evt {h : Heap} {v : Nat} (hv : h v = none) : ∀ f1 x x', derefF h f1 x = some x' →
    Evt (fun f => occursF h f v x = some (decide (v ∈ vars x'))) := by
  intro f1
  induction f1 with
  | zero => intro x x' e; simp [derefF] at e
  | succ f1 ih =>
    intro x x' e
    cases x with
    | var n =>
      by_cases hnv : n = v
      · subst hnv
        simp [derefF, hv] at e; subst e
        exact Evt.of_succ fun f => by simp [occursF]
      · cases hn : h n with
        | some t =>
          simp only [derefF, hn] at e
          exact Evt.succ ((ih t x' e).mono fun f e => by simp only [occursF, hnv, if_false, hn]; exact e)
        | none =>
          simp [derefF, hn] at e; subst e
          exact Evt.of_succ fun f => by simp [occursF, hnv, hn, Ne.symm hnv]
    | con c =>
      simp [derefF] at e; subst e
      exact Evt.of_succ fun f => by simp [occursF]
    | app as =>
      obtain ⟨as', rfl, ea⟩ := deref_app.1 e
      exact Evt.succ ((occursLF_evt ih ea).mono fun f e => by simp only [occursF, e, vars_app])

theorem Good.occursF {h : Heap} (hg : Good h) {v : Nat} (hv : h v = none) (x : Tm) :
    Evt (fun f => Heap.occursF h f v x = some (decide (v ∈ vars (x.sub (res h))))) := by
  obtain ⟨f1, e1⟩ := hg.deref x
  exact occursF_evt hv f1 _ _ e1

/-! ### Binding a variable -/

@[simp] theorem upd_same (h : Heap) (x : Nat) (v : Option Tm) : h.upd x v x = v := by simp [upd]
theorem upd_ne (h : Heap) {x y : Nat} (v : Option Tm) (hy : y ≠ x) : h.upd x v y = h y := by
  simp [upd, hy]

theorem deref_upd_of_notMem {h : Heap} {x : Nat} {v : Option Tm} (hx : h x = none) :
    ∀ f t t', derefF h f t = some t' → x ∉ vars t' → derefF (h.upd x v) f t = some t' := by
  intro f
  induction f with
  | zero => intro t t' e; simp [derefF] at e
  | succ f ih =>
    intro t t' e hnx
    cases t with
    | var n =>
      by_cases hnn : n = x
      · subst hnn; simp [derefF, hx] at e; subst e; simp at hnx
      · cases hn : h n with
        | none =>
          simp [derefF, hn] at e; subst e
          simp [derefF, upd_ne _ _ hnn, hn]
        | some u =>
          simp only [derefF, hn] at e
          simp only [derefF, upd_ne _ _ hnn, hn]; exact ih _ _ e hnx
    | con c => simpa [derefF] using e
    | app as =>
      obtain ⟨as', rfl, ea⟩ := deref_app.1 e
      refine deref_app.2 ⟨as', rfl, ?_⟩
      simp only [vars_app] at hnx
      clear e
      induction ea with
      | nil => exact .nil
      | cons h1 _ ih2 =>
        simp only [varsL_cons, Finset.mem_union, not_or] at hnx
        exact .cons (ih _ _ h1 hnx.1) (ih2 hnx.2)

/-- the substitution `x ↦ u` -/
def single (x : Nat) (u : Tm) : Nat → Tm := fun n => if n = x then u else .var n

theorem deref_upd {h : Heap} {x : Nat} {y y' : Tm} {fy : Nat} (hx : h x = none)
    (ey : derefF h fy y = some y') (hxy : x ∉ vars y') :
    ∀ f t t', derefF h f t = some t' →
      derefF (h.upd x (some y)) (f + fy) t = some (t'.sub (single x y')) := by
  have ey' := deref_upd_of_notMem (v := some y) hx _ _ _ ey hxy
  intro f
  induction f with
  | zero => intro t t' e; simp [derefF] at e
  | succ f ih =>
    intro t t' e
    rw [Nat.add_right_comm]
    cases t with
    | var n =>
      by_cases hnn : n = x
      · subst hnn
        simp [derefF, hx] at e; subst e
        simp only [derefF, upd_same, sub_var, single, if_true]
        exact deref_mono ey' (by omega)
      · cases hn : h n with
        | none =>
          simp [derefF, hn] at e; subst e
          simp [derefF, upd_ne _ _ hnn, hn, single, hnn]
        | some u =>
          simp only [derefF, hn] at e
          simp only [derefF, upd_ne _ _ hnn, hn]; exact ih _ _ e
    | con c => simp [derefF] at e; subst e; simp [derefF]
    | app as =>
      obtain ⟨as', rfl, ea⟩ := deref_app.1 e
      rw [sub_app]
      refine deref_app.2 ⟨_, rfl, ?_⟩
      clear e
      induction ea with
      | nil => exact .nil
      | cons h1 _ ih2 => exact .cons (ih _ _ h1) ih2

theorem Good.upd {h : Heap} (hg : Good h) {x : Nat} {y : Tm} (hx : h x = none)
    (hxy : x ∉ vars (y.sub (res h))) :
    Good (h.upd x (some y)) ∧
      ∀ t : Tm, t.sub (res (h.upd x (some y))) = (t.sub (res h)).sub (single x (y.sub (res h))) := by
  obtain ⟨fy, ey⟩ := hg.deref y
  have key := deref_upd hx ey hxy
  refine ⟨fun n => ?_, fun t => ?_⟩
  · obtain ⟨f, t, e⟩ := hg n
    exact ⟨_, _, key _ _ _ e⟩
  · obtain ⟨f, e⟩ := hg.deref t
    exact (deref_eq_sub (key _ _ _ e)).symm

theorem vars_sub_single {x : Nat} {u t : Tm} :
    vars (t.sub (single x u)) ⊆ (vars t).erase x ∪ vars u := by
  intro z hz
  obtain ⟨y, hy, hzy⟩ := mem_vars_sub.1 hz
  unfold single at hzy
  split at hzy
  · simp [hzy]
  · rename_i hyx; simp at hzy; subst hzy; simp [hy, hyx]

/-- Respecting one more binding. -/
theorem respects_upd {h : Heap} {x : Nat} {y : Tm} (hx : h x = none) {τ : Nat → Tm} :
    Respects (h.upd x (some y)) τ ↔ Respects h τ ∧ τ x = y.sub τ := by
  constructor
  · intro H
    refine ⟨fun n t hn => H n t ?_, H x y (by simp)⟩
    have : n ≠ x := by rintro rfl; rw [hx] at hn; cases hn
    rw [upd_ne _ _ this, hn]
  · rintro ⟨H, hxy⟩ n t hn
    by_cases hnx : n = x
    · subst hnx; simp at hn; subst hn; exact hxy
    · rw [upd_ne _ _ hnx] at hn; exact H n t hn

/-! ### Groundness -/

theorem groundF_evt {h : Heap} : ∀ f1 x x', derefF h f1 x = some x' →
    Evt (fun f => groundF h f x = some (decide (vars x' = ∅))) := by
  intro f1
  induction f1 with
  | zero => intro x x' e; simp [derefF] at e
  | succ f1 ih =>
    intro x x' e
    cases x with
    | var n =>
      cases hn : h n with
      | some t =>
        simp only [derefF, hn] at e
        exact Evt.succ ((ih t x' e).mono fun f e => by simp only [groundF, hn]; exact e)
      | none =>
        simp [derefF, hn] at e; subst e
        exact Evt.of_succ fun f => by simp [groundF, hn]
    | con c =>
      simp [derefF] at e; subst e
      exact Evt.of_succ fun f => by simp [groundF]
    | app as =>
      obtain ⟨as', rfl, ea⟩ := deref_app.1 e
      have : Evt (fun f => groundLF h f as = some (decide (varsL as' = ∅))) := by
        clear e
        induction ea with
        | nil => exact Evt.of_succ fun f => by simp [groundLF]
        | cons h1 _ ih2 =>
          rename_i a a' as as' _
          refine Evt.succ (((ih _ _ h1).and ih2).mono fun f hf => ?_)
          obtain ⟨e1, e2⟩ := hf
          simp only [groundLF, e1, varsL_cons, Finset.union_eq_empty]
          by_cases hab : vars a' = ∅
          · simp [hab, e2]
          · simp [hab]
      exact Evt.succ (this.mono fun f e => by simp only [groundF, e, vars_app])

end Heap
end Verif
