/-
Properties C06-C09: `covers`, `canonicalize`, `fresh`, `intersect`.
-/
import Verif.TermOps
import Verif.SubstThm

set_option linter.unusedSectionVars false
set_option linter.unusedSimpArgs false

namespace Verif
open Tm

/-! ### Variants -/
namespace Tm

theorem Variant.refl (t : Tm) : Variant t t := ⟨id, Set.injOn_id _, by simpa using (sub_id t).symm⟩

theorem mem_vars_ren {f : Nat → Nat} {t : Tm} {x : Nat} :
    x ∈ vars (sub (fun n => .var (f n)) t) ↔ ∃ y ∈ vars t, x = f y := by
  rw [mem_vars_sub]; simp

theorem Variant.symm {t u : Tm} (h : Variant t u) : Variant u t := by
  obtain ⟨f, hf, rfl⟩ := h
  classical
  let g : Nat → Nat := Function.invFunOn f (vars t)
  have hg : ∀ n ∈ vars t, g (f n) = n := fun n hn => hf.leftInvOn_invFunOn (by simpa using hn)
  refine ⟨g, ?_, ?_⟩
  · intro a ha b hb hab
    rw [Finset.mem_coe, mem_vars_ren] at ha hb
    obtain ⟨x, hx, rfl⟩ := ha
    obtain ⟨y, hy, rfl⟩ := hb
    rw [hg x hx, hg y hy] at hab; rw [hab]
  · rw [sub_sub]
    conv_lhs => rw [← sub_id t]
    refine sub_congr fun n hn => ?_
    simp [hg n hn]

theorem Variant.trans {t u v : Tm} (h : Variant t u) (h' : Variant u v) : Variant t v := by
  obtain ⟨f, hf, rfl⟩ := h
  obtain ⟨g, hg, rfl⟩ := h'
  refine ⟨g ∘ f, ?_, by rw [sub_sub]; simp⟩
  intro a ha b hb hab
  refine hf ha hb (hg ?_ ?_ hab)
  · exact mem_vars_ren.2 ⟨a, ha, rfl⟩
  · exact mem_vars_ren.2 ⟨b, hb, rfl⟩

theorem InstanceOf.refl (t : Tm) : InstanceOf t t := ⟨.var, sub_id t⟩
theorem InstanceOf.trans {t u v : Tm} (h : InstanceOf t u) (h' : InstanceOf u v) : InstanceOf t v := by
  obtain ⟨σ, rfl⟩ := h
  obtain ⟨τ, rfl⟩ := h'
  exact ⟨_, (sub_sub τ σ v).symm⟩
theorem Variant.instanceOf {t u : Tm} (h : Variant t u) : InstanceOf u t := by
  obtain ⟨f, _, rfl⟩ := h; exact ⟨_, rfl⟩

/-- Terms that are instances of each other are renamings of each other. -/
theorem variant_iff_instances {t u : Tm} : Variant t u ↔ InstanceOf u t ∧ InstanceOf t u := by
  constructor
  · intro h; exact ⟨h.instanceOf, h.symm.instanceOf⟩
  · rintro ⟨⟨σ, rfl⟩, ⟨τ, hτ⟩⟩
    rw [sub_sub] at hτ
    have hid : ∀ n ∈ vars t, sub τ (σ n) = .var n := by
      have := sub_eq_on_vars (σ := fun n => sub τ (σ n)) (τ := .var) (t := t) (by rw [hτ, sub_id])
      exact this
    have hvar : ∀ n ∈ vars t, ∃ m, σ n = .var m := by
      intro n hn
      have := hid n hn
      cases hs : σ n with
      | var m => exact ⟨m, rfl⟩
      | con c => rw [hs] at this; simp at this
      | app as => rw [hs] at this; simp at this
    classical
    refine ⟨fun n => match σ n with | .var m => m | _ => 0, ?_, ?_⟩
    · intro a ha b hb hab
      obtain ⟨m, hm⟩ := hvar a ha
      obtain ⟨k, hk⟩ := hvar b hb
      simp only [hm, hk] at hab
      subst hab
      have h1 := hid a ha; have h2 := hid b hb
      rw [hm] at h1; rw [hk] at h2; rw [h1] at h2; simpa using h2
    · refine sub_congr fun n hn => ?_
      obtain ⟨m, hm⟩ := hvar n hn
      simp [hm]

end Tm

/-! ### Matching -/
namespace Subst
open Heap

/-- `τ` agrees with the bindings recorded in `s`. -/
def Ext (s : Heap) (τ : Nat → Tm) : Prop := ∀ n t, s n = some t → τ n = t

/-- left variables are in `L`, right terms have none of them -/
structure Sep (L : Set Nat) (s : Heap) : Prop where
  dom : ∀ n t, s n = some t → n ∈ L
  rng : ∀ n t, s n = some t → ∀ x ∈ vars t, x ∉ L

structure CovSpec (L : Set Nat) (s : Heap) (x y : Tm) (r : Option Heap) : Prop where
  fail : r = none → ∀ τ, Ext s τ → x.sub τ ≠ y
  ok : ∀ s', r = some s' → Sep L s' ∧ (∀ n ∈ vars x, s' n ≠ none) ∧ (∀ n, s n ≠ none → s' n ≠ none) ∧
    ∀ τ, Ext s' τ ↔ Ext s τ ∧ x.sub τ = y

theorem sub_of_ground {t : Tm} (h : vars t = ∅) (τ : Nat → Tm) : t.sub τ = t := by
  conv_rhs => rw [← sub_id t]
  exact sub_congr fun x hx => by simp [h] at hx

theorem deref_id {s : Heap} : ∀ t : Tm, (∀ x ∈ vars t, s x = none) → ∃ f, derefF s f t = some t := by
  intro t ht
  have hg : ∀ t : Tm, (∀ x ∈ vars t, s x = none) → Evt (fun f => derefF s f t = some t) := by
    intro t
    induction t using ind with
    | hv n => intro h; exact Evt.of_succ fun f => by simp [derefF, h n (by simp)]
    | hc c => intro _; exact Evt.of_succ fun f => by simp [derefF]
    | ha as ih =>
      intro h
      have : Evt (fun f => List.Forall₂ (fun a a' => derefF s f a = some a') as as) := by
        clear ht
        induction as with
        | nil => exact Evt.of_all fun f => .nil
        | cons a as iha =>
          have h1 := iha (fun t ht => ih t (by simp [ht])) (fun x hx => h x (by
            simp only [vars_app, varsL_cons, Finset.mem_union] at hx ⊢; exact .inr hx))
          have h2 := ih a (by simp) (fun x hx => h x (by simp [hx]))
          exact (h1.and h2).mono fun f e => .cons e.2 e.1
      exact Evt.succ (this.mono fun f e => deref_app.2 ⟨as, rfl, e⟩)
  exact (hg t ht).exists'

theorem cover_total {L : Set Nat} : ∀ x : Tm, (∀ n ∈ vars x, n ∈ L) → ∀ s y, Sep L s → (∀ n ∈ vars y, n ∉ L) →
    ∃ r, CovSpec L s x y r ∧ Evt (fun f => coverF f s x y = some r) := by
  intro x
  induction x using ind with
  | hv n =>
    intro hx s y hs hy
    have hnL : n ∈ L := hx n (by simp)
    have hne : Tm.var n ≠ y := by rintro rfl; exact hy n (by simp) hnL
    cases hn : s n with
    | some t =>
      by_cases ht : t = y
      · subst ht
        refine ⟨some s, ⟨by simp, ?_⟩, Evt.of_all fun f => by simp [coverF, hne, hn]⟩
        rintro s' h; cases h
        exact ⟨hs, by simp [hn], fun _ h => h, fun τ => ⟨fun h => ⟨h, h n t hn⟩, fun h => h.1⟩⟩
      · refine ⟨none, ⟨fun _ τ hτ e => ht ?_, by simp⟩, Evt.of_all fun f => by simp [coverF, hne, hn, ht]⟩
        rw [← e, sub_var, hτ n t hn]
    | none =>
      obtain ⟨fy, ey⟩ := deref_id (s := s) y (fun x hxy => by
        by_contra hc
        obtain ⟨t, ht⟩ := Option.ne_none_iff_exists'.1 hc
        exact hy x hxy (hs.dom x t ht))
      have ho := occursF_evt hn fy y y ey
      have hny : n ∉ vars y := fun h => hy n h hnL
      refine ⟨some (s.upd n (some y)), ⟨by simp, ?_⟩, ho.mono fun f e => by simp [coverF, hne, hn, e, hny]⟩
      rintro s' h; cases h
      refine ⟨⟨fun m t hm => ?_, fun m t hm => ?_⟩, by simp, fun m hm => ?_, fun τ => ?_⟩
      · by_cases hmn : m = n
        · subst hmn; exact hnL
        · rw [upd_ne _ _ hmn] at hm; exact hs.dom m t hm
      · by_cases hmn : m = n
        · subst hmn; simp at hm; subst hm; exact hy
        · rw [upd_ne _ _ hmn] at hm; exact hs.rng m t hm
      · by_cases hmn : m = n
        · subst hmn; simp
        · rw [upd_ne _ _ hmn]; exact hm
      · constructor
        · intro H
          refine ⟨fun m t hm => H m t ?_, H n y (by simp)⟩
          have : m ≠ n := by rintro rfl; rw [hn] at hm; cases hm
          rw [upd_ne _ _ this, hm]
        · rintro ⟨H, e⟩ m t hm
          by_cases hmn : m = n
          · subst hmn; simp at hm; subst hm; exact e
          · rw [upd_ne _ _ hmn] at hm; exact H m t hm
  | hc c =>
    intro hx s y hs hy
    by_cases h : Tm.con c = y
    · refine ⟨some s, ⟨by simp, ?_⟩, Evt.of_all fun f => by simp [coverF, h]⟩
      rintro s' h'; cases h'
      exact ⟨hs, by simp, fun _ h => h, fun τ => by rw [← h]; simp⟩
    · exact ⟨none, ⟨fun _ τ _ e => h (by simpa using e), by simp⟩, Evt.of_all fun f => by simp [coverF, h]⟩
  | ha as ih =>
    intro hx s y hs hy
    by_cases h : Tm.app as = y
    · refine ⟨some s, ⟨by simp, ?_⟩, Evt.of_all fun f => by simp [coverF, h]⟩
      rintro s' h'; cases h'
      have hg : vars (Tm.app as) = ∅ := by
        rw [Finset.eq_empty_iff_forall_notMem]
        intro n hn; exact hy n (h ▸ hn) (hx n hn)
      refine ⟨hs, by simp only [hg]; simp, fun _ h => h, fun τ => ?_⟩
      rw [sub_of_ground hg]; simp [h]
    · cases y with
      | var m => exact ⟨none, ⟨fun _ τ _ e => by simp at e, by simp⟩, Evt.of_all fun f => by simp [coverF]⟩
      | con c => exact ⟨none, ⟨fun _ τ _ e => by simp at e, by simp⟩, Evt.of_all fun f => by simp [coverF]⟩
      | app bs =>
        by_cases hl : as.length = bs.length
        · have key : ∀ s, Sep L s → ∃ r, CovSpec L s (.app as) (.app bs) r ∧
              Evt (fun f => coverLF f s as bs = some r) := by
            clear h hs
            induction as generalizing bs with
            | nil =>
              intro s hs
              cases bs with
              | cons _ _ => simp at hl
              | nil =>
                refine ⟨some s, ⟨by simp, ?_⟩, Evt.of_all fun f => by simp [coverLF]⟩
                rintro s' h'; cases h'
                exact ⟨hs, by simp, fun _ h => h, fun τ => by simp⟩
            | cons a as iha =>
              intro s hs
              cases bs with
              | nil => simp at hl
              | cons b bs =>
                simp only [vars_app, varsL_cons, Finset.mem_union] at hx hy
                obtain ⟨r, hr, er⟩ := ih a (by simp) (fun n hn => hx n (.inl hn)) s b hs (fun n hn => hy n (.inl hn))
                cases r with
                | none =>
                  refine ⟨none, ⟨fun _ τ hτ e => ?_, by simp⟩, er.mono fun f e => by simp [coverLF, e]⟩
                  simp only [sub_app, List.map_cons, Tm.app.injEq, List.cons.injEq] at e
                  exact hr.fail rfl τ hτ e.1
                | some s1 =>
                  obtain ⟨hs1, hv1, hk1, he1⟩ := hr.ok s1 rfl
                  obtain ⟨r2, hr2, er2⟩ := iha (fun t ht => ih t (by simp [ht])) (fun n hn => hx n (.inr hn)) bs
                    (fun n hn => hy n (.inr hn)) (by simpa using hl) s1 hs1
                  refine ⟨r2, ⟨fun h τ hτ e => ?_, fun s' h => ?_⟩, (er.and er2).mono fun f e => by
                    simp [coverLF, e.1, e.2]⟩
                  · simp only [sub_app, List.map_cons, Tm.app.injEq, List.cons.injEq] at e
                    exact hr2.fail h τ ((he1 τ).2 ⟨hτ, e.1⟩) (by simpa using e.2)
                  · obtain ⟨h1, h2, h3, h4⟩ := hr2.ok s' h
                    refine ⟨h1, fun n hn => ?_, fun n hn => h3 n (hk1 n hn), fun τ => ?_⟩
                    · simp only [vars_app, varsL_cons, Finset.mem_union] at hn
                      rcases hn with hn | hn
                      · exact h3 n (hv1 n hn)
                      · exact h2 n hn
                    · rw [h4, he1]
                      simp only [sub_app, List.map_cons, Tm.app.injEq, List.cons.injEq]
                      tauto
          obtain ⟨r, hr, er⟩ := key s hs
          exact ⟨r, hr, er.mono fun f e => by simp [coverF, h, hl, e]⟩
        · refine ⟨none, ⟨fun _ τ _ e => hl ?_, by simp⟩, Evt.of_all fun f => by simp [coverF, h, hl]⟩
          simp only [sub_app, Tm.app.injEq] at e
          simpa using congrArg List.length e

theorem coverF_mono {f : Nat} : ∀ x s y r, coverF f s x y = some r → coverF (f + 1) s x y = some r := by
  intro x
  induction x using ind with
  | hv n =>
    intro s y r e
    rw [coverF] at e ⊢
    split at e
    · rename_i h; rw [if_pos h]; exact e
    · rename_i h
      rw [if_neg h]
      cases hn : s n with
      | some t => simpa only [hn] using e
      | none =>
        simp only [hn] at e ⊢
        cases ho : Heap.occursF s f n y with
        | none => simp [ho] at e
        | some b => rw [(occurs_mono f).1 _ _ _ ho]; simpa only [ho] using e
  | hc c => intro s y r e; simpa only [coverF] using e
  | ha as ih =>
    intro s y r e
    rw [coverF.eq_def] at e ⊢; simp only at e ⊢
    split at e
    · rename_i h; rw [if_pos h]; exact e
    · rename_i h
      rw [if_neg h]
      cases y with
      | var m => exact e
      | con c => exact e
      | app bs =>
        simp only at e ⊢
        split at e
        · rename_i hl
          rw [if_pos hl]
          clear h hl
          induction as generalizing s bs with
          | nil => simpa [coverLF] using e
          | cons a as iha =>
            cases bs with
            | nil => simpa [coverLF] using e
            | cons b bs =>
              rw [coverLF] at e ⊢
              cases h1 : coverF f s a b with
              | none => simp [h1] at e
              | some r1 =>
                rw [ih a (by simp) _ _ _ h1]
                cases r1 with
                | none => simpa only [h1] using e
                | some s' => simp only [h1] at e ⊢; exact iha (fun t ht => ih t (by simp [ht])) _ _ e
        · rename_i hl; rw [if_neg hl]; exact e

theorem coverF_mono_le {f g : Nat} (hfg : f ≤ g) {s x y r} (e : coverF f s x y = some r) :
    coverF g s x y = some r := by
  induction hfg with
  | refl => exact e
  | step _ ih => exact coverF_mono _ _ _ _ ih

/-! ### Property C06 -/

theorem cover_spec {x y : Tm} (hd : Disjoint (vars x) (vars y)) :
    ∃ r, CovSpec (vars x) (fun _ => none) x y r ∧ (Evt fun f => coverF f (fun _ => none) x y = some r) ∧
      ∀ f r', coverF f (fun _ => none) x y = some r' → r' = r := by
  obtain ⟨r, h1, N, hN⟩ := cover_total (L := vars x) x (fun n hn => hn) (fun _ => none) y
    ⟨fun n t h => by simp at h, fun n t h => by simp at h⟩
    (fun n hn hx => (Finset.disjoint_left.1 hd hx hn))
  refine ⟨r, h1, ⟨N, hN⟩, fun f r' e => ?_⟩
  have := coverF_mono_le (le_max_left f N) e
  rw [hN _ (le_max_right f N)] at this
  exact (Option.some.inj this).symm

/-- `covers(x, y)` terminates and is true iff `y` is an instance of `x`. -/
theorem C06_covers {x y : Tm} (hd : Disjoint (vars x) (vars y)) :
    (∃ N, ∀ f ≥ N, coversF f x y ≠ none) ∧
    ∀ f b, coversF f x y = some b → (b = true ↔ InstanceOf y x) := by
  obtain ⟨r, h1, ⟨N, hN⟩, hu⟩ := cover_spec hd
  refine ⟨⟨N, fun f hf => by simp [coversF, hN f hf]⟩, fun f b e => ?_⟩
  unfold coversF at e
  rw [Option.map_eq_some_iff] at e
  obtain ⟨r', e1, rfl⟩ := e
  have := hu f r' e1
  subst this
  cases r' with
  | none =>
    simp only [Option.isSome_none, Bool.false_eq_true, false_iff]
    rintro ⟨σ, hσ⟩
    exact h1.fail rfl σ (fun n t h => by simp at h) hσ
  | some s =>
    simp only [Option.isSome_some, true_iff]
    have he := (h1.ok s rfl).2.2.2
    refine ⟨fun n => (s n).getD (.var n), ?_⟩
    exact ((he _).1 (fun n t h => by simp [h])).2

/-- The matching substitution, applied with `Subst.__call__`, maps `x` exactly to `y`. -/
theorem C06_subst {x y : Tm} (hd : Disjoint (vars x) (vars y)) {f s}
    (e : coverF f (fun _ => none) x y = some (some s)) : ∃ M, ∀ g ≥ M, callF s g x = some y := by
  obtain ⟨r, h1, _, hu⟩ := cover_spec hd
  have := hu f _ e
  subst this
  obtain ⟨hsep, hdom, _, he⟩ := h1.ok s rfl
  have hgood : Good s := by
    intro n
    cases hn : s n with
    | none => exact ⟨1, .var n, by simp [derefF, hn]⟩
    | some t =>
      obtain ⟨g, hg⟩ := deref_id (s := s) t (fun x hx => by
        by_contra hc
        obtain ⟨u, hu⟩ := Option.ne_none_iff_exists'.1 hc
        exact hsep.rng n t hn x hx (hsep.dom x u hu))
      exact ⟨g + 1, t, by simp [derefF, hn, hg]⟩
  have hy : x.sub (res s) = y := by
    refine ((he _).1 (fun n t hn => ?_)).2
    rw [hgood.res_bound hn]
    conv_rhs => rw [← sub_id t]
    refine sub_congr fun x hx => res_unbound ?_
    by_contra hc
    obtain ⟨u, hu⟩ := Option.ne_none_iff_exists'.1 hc
    exact hsep.rng n t hn x hx (hsep.dom x u hu)
  rw [← hy]
  exact hgood.evt_deref x

/-- `same(x, y)` decides equality up to renaming. -/
theorem C06_same {x y : Tm} (hd : Disjoint (vars x) (vars y)) {f b} (e : sameF f x y = some b) :
    b = true ↔ Variant x y := by
  rw [variant_iff_instances]
  unfold sameF at e
  cases h1 : coversF f x y with
  | none => simp [h1] at e
  | some b1 =>
    have := (C06_covers hd).2 f b1 h1
    cases b1 with
    | false =>
      simp only [h1, Option.some.injEq] at e; subst e
      simp only [Bool.false_eq_true, false_iff] at this ⊢
      exact fun h => this h.1
    | true =>
      simp only [h1] at e
      have h2 := (C06_covers hd.symm).2 f b e
      rw [h2]; simp only [true_iff] at this; exact ⟨fun h => ⟨this, h⟩, fun h => h.2⟩

theorem C06_same_terminates {x y : Tm} (hd : Disjoint (vars x) (vars y)) :
    ∃ N, ∀ f ≥ N, sameF f x y ≠ none := by
  obtain ⟨N, hN⟩ := (C06_covers hd).1
  obtain ⟨M, hM⟩ := (C06_covers hd.symm).1
  refine ⟨max N M, fun f hf => ?_⟩
  unfold sameF
  cases h1 : coversF f x y with
  | none => exact absurd h1 (hN f (by omega))
  | some b => cases b with
    | false => simp
    | true => exact hM f (by omega)

section Witnesses
private def f2 (a b : Tm) : Tm := .app [.con (.str "f"), a, b]
private def X : Tm := .var 0
private def Y : Tm := .var 1
private def ca : Tm := .con (.str "a")

/-- With shared variables the answer is wrong: `covers(f(X,X), f(X,a))` is True although `f(X,a)` is not
an instance of `f(X,X)`. -/
theorem C06_shared_unsound : coversF 20 (f2 X X) (f2 X ca) = some true ∧ ¬ InstanceOf (f2 X ca) (f2 X X) := by
  refine ⟨by rfl, ?_⟩
  rintro ⟨σ, h⟩
  simp [f2, X, ca] at h
  rw [h.1] at h; simp at h

/-- ... and `covers(X, f(X,X))` is False although everything is an instance of a variable. -/
theorem C06_shared_incomplete : coversF 20 X (f2 X X) = some false ∧ InstanceOf (f2 X X) X :=
  ⟨by rfl, ⟨fun _ => f2 X X, by simp [X]⟩⟩

-- disjoint terms meeting the hypotheses: f(X,X) covers f(a,a), not f(a,Y)
example : Disjoint (vars (f2 X X)) (vars (f2 ca ca)) ∧ coversF 20 (f2 X X) (f2 ca ca) = some true :=
  ⟨by decide, by rfl⟩
example : Disjoint (vars (f2 X X)) (vars (f2 ca Y)) ∧ coversF 20 (f2 X X) (f2 ca Y) = some false :=
  ⟨by decide, by rfl⟩
example : sameF 20 (f2 X X) (f2 Y Y) = some true := by rfl
end Witnesses

end Subst

/-! ### Renaming traversals -/

/-- what the traversal computes -/
theorem ren_spec (gen : Nat → Nat) : ∀ (x : Tm) (vs : List Nat), vs.Nodup →
    ∃ ws, (ren gen x vs).2 = vs ++ ws ∧ (vs ++ ws).Nodup ∧ (∀ n, n ∈ vs ++ ws ↔ n ∈ vs ∨ n ∈ vars x) ∧
      ∀ us, (vs ++ ws ++ us).Nodup → (ren gen x vs).1 = x.sub (fun n => .var (gen (idx (vs ++ ws ++ us) n))) := by
  intro x
  induction x using ind with
  | hv n =>
    intro vs hvs
    by_cases hn : n ∈ vs
    · refine ⟨[], by simp [ren, hn], by simpa using hvs, fun m => by simp; rintro rfl; exact hn, fun us _ => ?_⟩
      simp only [ren, hn, if_true, sub_var, List.append_nil, idx]
      rw [List.idxOf_append_of_mem hn]
    · refine ⟨[n], by simp [ren, hn], ?_, fun m => by simp, fun us _ => ?_⟩
      · rw [List.nodup_append]; exact ⟨hvs, by simp, by rintro a ha b hb; simp at hb; rintro rfl; exact hn (hb ▸ ha)⟩
      · simp only [ren, hn, if_false, sub_var, idx]
        rw [List.idxOf_append_of_mem (by simp), List.idxOf_append_of_notMem hn]; simp
  | hc c => intro vs hvs; exact ⟨[], by simp [ren], by simpa using hvs, by simp, fun us _ => by simp [ren]⟩
  | ha as ih =>
    intro vs hvs
    have : ∃ ws, (renL gen as vs).2 = vs ++ ws ∧ (vs ++ ws).Nodup ∧ (∀ n, n ∈ vs ++ ws ↔ n ∈ vs ∨ n ∈ varsL as) ∧
        ∀ us, (vs ++ ws ++ us).Nodup →
          (renL gen as vs).1 = as.map (sub (fun n => .var (gen (idx (vs ++ ws ++ us) n)))) := by
      induction as generalizing vs with
      | nil => exact ⟨[], by simp [renL], by simpa using hvs, by simp, fun us _ => by simp [renL]⟩
      | cons a as iha =>
        obtain ⟨ws1, e1, n1, m1, s1⟩ := ih a (by simp) vs hvs
        obtain ⟨ws2, e2, n2, m2, s2⟩ := iha (fun t ht => ih t (by simp [ht])) (vs ++ ws1) n1
        refine ⟨ws1 ++ ws2, ?_, by rw [← List.append_assoc]; exact n2, fun n => ?_, fun us hu => ?_⟩
        · simp only [renL, e1, e2, List.append_assoc]
        · rw [← List.append_assoc, m2, m1]; simp only [varsL_cons, Finset.mem_union]; tauto
        · simp only [renL, e1, List.map_cons]
          have hu' : (vs ++ ws1 ++ (ws2 ++ us)).Nodup := by simpa using hu
          rw [s1 _ hu', s2 us (by simpa using hu)]
          simp only [List.append_assoc]
    obtain ⟨ws, e, n, m, s⟩ := this
    refine ⟨ws, by simp only [ren, e], n, by simpa using m, fun us hu => ?_⟩
    simp only [ren, sub_app, Tm.app.injEq]
    exact s us hu

/-- The traversal commutes with one-to-one renamings: the result term is the same. -/
theorem ren_map (gen : Nat → Nat) (f : Nat → Nat) : ∀ (x : Tm) (vs : List Nat),
    (∀ a b, (a ∈ vs ∨ a ∈ vars x) → (b ∈ vs ∨ b ∈ vars x) → f a = f b → a = b) → vs.Nodup →
    ren gen (x.sub (fun n => .var (f n))) (vs.map f) = ((ren gen x vs).1, (ren gen x vs).2.map f) := by
  intro x
  induction x using ind with
  | hv n =>
    intro vs hf hvs
    have hmem : f n ∈ vs.map f ↔ n ∈ vs := by
      rw [List.mem_map]
      constructor
      · rintro ⟨a, ha, e⟩; have := hf a n (.inl ha) (.inr (by simp)) e; exact this ▸ ha
      · intro h; exact ⟨n, h, rfl⟩
    by_cases hn : n ∈ vs
    · simp only [sub_var, ren, hmem.2 hn, hn, if_true, idx]
      congr 3
      have : ∀ l : List Nat, (∀ a ∈ l, f a = f n → a = n) → (l.map f).idxOf (f n) = l.idxOf n := by
        intro l
        induction l with
        | nil => intro _; rfl
        | cons a l ihl =>
          intro h
          simp only [List.map_cons, List.idxOf_cons]
          by_cases hab : a = n
          · subst hab; simp
          · have hfa : f a ≠ f n := fun e => hab (h a (by simp) e)
            rw [ihl (fun a ha => h a (by simp [ha]))]
            have e1 : (f a == f n) = false := by simpa using hfa
            have e2 : (a == n) = false := by simpa using hab
            rw [e1, e2]
      rw [this]
      intro a ha e; exact hf a n (.inl ha) (.inr (by simp)) e
    · simp [ren, hmem, hn]
  | hc c => intro vs hf hvs; simp [ren]
  | ha as ih =>
    intro vs hf hvs
    have : renL gen (as.map (sub fun n => .var (f n))) (vs.map f) =
        ((renL gen as vs).1, (renL gen as vs).2.map f) := by
      simp only [vars_app] at hf
      induction as generalizing vs with
      | nil => simp [renL]
      | cons a as iha =>
        simp only [varsL_cons, Finset.mem_union] at hf
        obtain ⟨ws, e1, n1, m1, -⟩ := ren_spec gen a vs hvs
        have h1 := ih a (by simp) vs (fun p q hp hq => hf p q (by tauto) (by tauto)) hvs
        have h2 := iha (fun t ht => ih t (by simp [ht])) (ren gen a vs).2 (by rw [e1]; exact n1)
          (fun p q hp hq => hf p q (by rw [e1, m1] at hp; tauto) (by rw [e1, m1] at hq; tauto))
        simp only [List.map_cons, renL, h1, h2]
    simp only [sub_app, ren, this]

theorem ren_nil (gen : Nat → Nat) (x : Tm) : ∃ ws, (ren gen x []).2 = ws ∧ ws.Nodup ∧ (∀ n, n ∈ ws ↔ n ∈ vars x) ∧
    (ren gen x []).1 = x.sub (fun n => .var (gen (idx ws n))) := by
  obtain ⟨ws, e, n, m, s⟩ := ren_spec gen x [] (by simp)
  simp only [List.nil_append, List.not_mem_nil, false_or] at e n m s
  exact ⟨ws, e, n, m, by simpa using s [] (by simpa using n)⟩

theorem idx_inj {ws : List Nat} {a b : Nat} (ha : a ∈ ws) (h : idx ws a = idx ws b) : a = b :=
  (List.idxOf_inj ha).1 h

/-- The traversal through the store is the traversal of the resolved term. -/
theorem renF_evt {h : Heap} {gen : Nat → Nat} : ∀ f1 x x', Heap.derefF h f1 x = some x' → ∀ vs,
    Evt (fun f => renF h gen f x vs = some (ren gen x' vs)) := by
  intro f1
  induction f1 with
  | zero => intro x x' e; simp [Heap.derefF] at e
  | succ f1 ih =>
    intro x x' e vs
    cases x with
    | var n =>
      cases hn : h n with
      | some t =>
        simp only [Heap.derefF, hn] at e
        exact Evt.succ ((ih t x' e vs).mono fun f e => by simp only [renF, hn]; exact e)
      | none =>
        simp [Heap.derefF, hn] at e; subst e
        refine Evt.of_succ fun f => ?_
        simp only [renF, hn, ren]; split <;> rfl
    | con c =>
      simp [Heap.derefF] at e; subst e
      exact Evt.of_succ fun f => by simp [renF, ren]
    | app as =>
      obtain ⟨as', rfl, ea⟩ := Heap.deref_app.1 e
      have : ∀ vs, Evt (fun f => renLF h gen f as vs = some (renL gen as' vs)) := by
        clear e
        induction ea with
        | nil => intro vs; exact Evt.of_succ fun f => by simp [renLF, renL]
        | cons h1 _ ih2 =>
          intro vs
          rename_i a a' as as' _
          exact Evt.succ (((ih _ _ h1 vs).and (ih2 (ren gen a' vs).2)).mono fun f hf => by
            simp only [renLF, hf.1, hf.2, renL])
      exact Evt.succ ((this vs).mono fun f e => by simp only [renF, e, ren])

theorem renF_mono {h : Heap} {gen : Nat → Nat} : ∀ f,
    (∀ x vs r, renF h gen f x vs = some r → renF h gen (f + 1) x vs = some r) ∧
    (∀ xs vs r, renLF h gen f xs vs = some r → renLF h gen (f + 1) xs vs = some r) := by
  intro f
  induction f with
  | zero => exact ⟨fun x vs r e => by simp [renF] at e, fun x vs r e => by simp [renLF] at e⟩
  | succ f ih =>
    refine ⟨fun x vs r e => ?_, fun xs vs r e => ?_⟩
    · cases x with
      | var n =>
        cases hn : h n with
        | some t => simp only [renF, hn] at e ⊢; exact ih.1 _ _ _ e
        | none => simp only [renF, hn] at e ⊢; exact e
      | con c => simpa only [renF] using e
      | app as =>
        simp only [renF] at e ⊢
        cases h1 : renLF h gen f as vs with
        | none => simp [h1] at e
        | some q => rw [ih.2 _ _ _ h1]; simpa only [h1] using e
    · cases xs with
      | nil => simpa only [renLF] using e
      | cons x xs =>
        rw [renLF] at e ⊢
        cases h1 : renF h gen f x vs with
        | none => simp [h1] at e
        | some q =>
          rw [ih.1 _ _ _ h1]
          obtain ⟨a', vs'⟩ := q
          simp only [h1] at e ⊢
          cases h2 : renLF h gen f xs vs' with
          | none => simp [h2] at e
          | some q => rw [ih.2 _ _ _ h2]; simpa only [h2] using e

theorem renF_mono_le {h : Heap} {gen : Nat → Nat} {f g : Nat} (hfg : f ≤ g) {x vs r}
    (e : renF h gen f x vs = some r) : renF h gen g x vs = some r := by
  induction hfg with
  | refl => exact e
  | step _ ih => exact (renF_mono _).1 _ _ _ ih

theorem renF_eq {h : Heap} {gen : Nat → Nat} {x x' : Tm} (hr : Heap.Resolves h x x') {f vs r}
    (e : renF h gen f x vs = some r) : r = ren gen x' vs := by
  obtain ⟨f1, e1⟩ := hr.deref
  obtain ⟨N, hN⟩ := renF_evt (gen := gen) f1 x x' e1 vs
  have := renF_mono_le (le_max_left f N) e
  rw [hN _ (le_max_right f N)] at this
  exact (Option.some.inj this).symm

theorem canonP_variant {cv : Nat → Nat} (hcv : Function.Injective cv) (x : Tm) : Variant x (canonP cv x) := by
  obtain ⟨ws, e, n, m, s⟩ := ren_nil cv x
  refine ⟨fun k => cv (idx ws k), ?_, s⟩
  intro a ha b hb hab
  exact idx_inj ((m a).2 ha) (hcv hab)

theorem canonP_eq_iff {cv : Nat → Nat} (hcv : Function.Injective cv) {x y : Tm} :
    canonP cv x = canonP cv y ↔ Variant x y := by
  constructor
  · intro h
    have h1 := canonP_variant hcv x
    have h2 := (canonP_variant hcv y).symm
    rw [← h] at h2; exact h1.trans h2
  · rintro ⟨f, hf, rfl⟩
    have := ren_map cv f x [] (fun a b ha hb => by
      simp only [List.not_mem_nil, false_or] at ha hb
      exact hf ha hb) (by simp)
    simp only [List.map_nil] at this
    unfold canonP; rw [this]

/-! ### Property C07 -/

/-- `canonicalize(x) == canonicalize(y)` iff the terms denoted by `x` and `y` are renamings of each other. -/
theorem C07_iff {cv : Nat → Nat} (hcv : Function.Injective cv) {h : Heap} {x y x' y' cx cy : Tm} {f g : Nat}
    (hx : Heap.Resolves h x x') (hy : Heap.Resolves h y y')
    (ex : canonF cv h f x = some cx) (ey : canonF cv h g y = some cy) : cx = cy ↔ Variant x' y' := by
  unfold canonF at ex ey
  rw [Option.map_eq_some_iff] at ex ey
  obtain ⟨rx, ex, rfl⟩ := ex
  obtain ⟨ry, ey, rfl⟩ := ey
  rw [renF_eq hx ex, renF_eq hy ey]
  exact canonP_eq_iff hcv

/-- The canonical form is a renaming of the term, and canonicalizing again changes nothing. -/
theorem C07_form {cv : Nat → Nat} (hcv : Function.Injective cv) {h : Heap} {x x' cx : Tm} {f : Nat}
    (hx : Heap.Resolves h x x') (ex : canonF cv h f x = some cx) : Variant x' cx ∧
      ((∀ i, h (cv i) = none) → ∀ g ccx, canonF cv h g cx = some ccx → ccx = cx) := by
  unfold canonF at ex
  rw [Option.map_eq_some_iff] at ex
  obtain ⟨rx, ex, rfl⟩ := ex
  rw [renF_eq hx ex]
  refine ⟨canonP_variant hcv x', fun hun g ccx eg => ?_⟩
  unfold canonF at eg
  rw [Option.map_eq_some_iff] at eg
  obtain ⟨rx2, eg, rfl⟩ := eg
  have hres : Heap.Resolves h (ren cv x' []).1 (ren cv x' []).1 := by
    obtain ⟨ws, _, _, _, s⟩ := ren_nil cv x'
    obtain ⟨f, hf⟩ := Subst.deref_id (s := h) (ren cv x' []).1 (fun k hk => by
      rw [s, mem_vars_ren] at hk
      obtain ⟨n, _, rfl⟩ := hk; exact hun _)
    exact Heap.deref_resolves hf
  rw [renF_eq hres eg]
  exact (canonP_eq_iff hcv).2 (canonP_variant hcv x').symm

theorem C07_terminates {cv : Nat → Nat} {h : Heap} (hac : Heap.Acyclic h) (x : Tm) :
    ∃ N, ∀ f ≥ N, canonF cv h f x ≠ none := by
  obtain ⟨f, e⟩ := (Heap.good_iff_acyclic.2 hac).deref x
  obtain ⟨N, hN⟩ := renF_evt (gen := cv) f x _ e []
  exact ⟨N, fun f hf => by simp [canonF, hN f hf]⟩

/-! ### Property C08 -/

/-- `fresh(x)` resolves bindings and renames variables one-to-one to newly allocated ones (numbered in
`[k, k')`), so shared variables stay shared and the copy is apart from every existing variable. -/
theorem C08_fresh {h : Heap} {k f : Nat} {x x' z : Tm} {k' : Nat} (hx : Heap.Resolves h x x')
    (e : freshF k h f x = some (z, k')) : Variant x' z ∧ k ≤ k' ∧ ∀ n ∈ vars z, k ≤ n ∧ n < k' := by
  unfold freshF at e
  rw [Option.map_eq_some_iff] at e
  obtain ⟨r, e, h1⟩ := e
  rw [renF_eq hx e] at h1
  simp only [Prod.mk.injEq] at h1
  obtain ⟨h1, h2⟩ := h1
  obtain ⟨ws, ew, nd, m, s⟩ := ren_nil (k + ·) x'
  rw [ew] at h2
  rw [← h1, s]
  refine ⟨⟨fun n => k + idx ws n, fun a ha b hb hab => ?_, rfl⟩, by omega, fun n hn => ?_⟩
  · have : idx ws a = idx ws b := by simp only at hab; omega
    exact idx_inj ((m a).2 ha) this
  · rw [mem_vars_ren] at hn
    obtain ⟨a, ha, rfl⟩ := hn
    have : idx ws a < ws.length := List.idxOf_lt_length_of_mem ((m a).2 ha)
    omega

/-- Consequently the copy shares no variable with anything allocated before. -/
theorem C08_apart {h : Heap} {k f : Nat} {x x' z : Tm} {k' : Nat} (hx : Heap.Resolves h x x')
    (e : freshF k h f x = some (z, k')) (t : Tm) (ht : ∀ n ∈ vars t, n < k) : Disjoint (vars t) (vars z) := by
  rw [Finset.disjoint_left]
  intro n h1 h2
  have := ((C08_fresh hx e).2.2 n h2).1
  have := ht n h1; omega

theorem C08_terminates {h : Heap} (hac : Heap.Acyclic h) (k : Nat) (x : Tm) :
    ∃ N, ∀ f ≥ N, freshF k h f x ≠ none := by
  obtain ⟨f, e⟩ := (Heap.good_iff_acyclic.2 hac).deref x
  obtain ⟨N, hN⟩ := renF_evt (gen := (k + ·)) f x _ e []
  exact ⟨N, fun f hf => by simp [freshF, hN f hf]⟩

/-! ### Property C09 -/

/-- The general form, for any acyclic store and any sharing: instances of the result are exactly the
common values `x.sub τ = y.sub τ` over assignments compatible with the store. -/
theorem C09_store {h : Heap} (hac : Heap.Acyclic h) {k f : Nat} {x y : Tm} {r : Option Tm}
    (e : intersectF k f x y h = some r) :
    (r = none ↔ ¬ ∃ τ, Heap.Respects h τ ∧ x.sub τ = y.sub τ) ∧
    ∀ z, r = some z → ∀ t, InstanceOf t z ↔ ∃ τ, Heap.Respects h τ ∧ x.sub τ = y.sub τ ∧ x.sub τ = t := by
  obtain ⟨q, hs, hr⟩ := Heap.unify_run (Heap.good_iff_acyclic.2 hac) x y
  unfold intersectF at e
  rw [Option.map_eq_some_iff] at e
  obtain ⟨p, e1, rfl⟩ := e
  have := hr _ _ _ _ e1
  cases hs with
  | fail hf =>
    simp only [Heap.run, Option.some.injEq] at this
    subst this
    refine ⟨by simp; exact fun τ h1 h2 => hf τ h1 h2, by simp⟩
  | ok bs g1 s1 _ _ _ =>
    simp only [Heap.run] at this
    cases hb : freshF k (Heap.bindAll h bs) f x with
    | none => simp [hb] at this
    | some w =>
      obtain ⟨z, k'⟩ := w
      simp only [hb, Option.some.injEq] at this
      subst this
      refine ⟨by simp; exact ⟨_, (s1 _).1 g1.respects_res⟩, fun z' hz t => ?_⟩
      simp at hz; subst hz
      obtain ⟨fd, ed⟩ := g1.deref x
      have hv := (C08_fresh (Heap.deref_resolves ed) hb).1
      have hv' := variant_iff_instances.1 hv
      constructor
      · intro ht
        obtain ⟨σ, rfl⟩ := ht.trans hv'.1
        -- the composed assignment respects the store
        refine ⟨fun n => (Heap.res (Heap.bindAll h bs) n).sub σ, ?_⟩
        have hR : Heap.Respects (Heap.bindAll h bs) (fun n => (Heap.res (Heap.bindAll h bs) n).sub σ) := by
          intro n t hn
          simp only
          rw [g1.res_bound hn, sub_sub]
        have := (s1 _).1 hR
        exact ⟨this.1, this.2, (sub_sub _ σ x).symm⟩
      · rintro ⟨τ, h1, h2, rfl⟩
        have hR := (s1 τ).2 ⟨h1, h2⟩
        refine InstanceOf.trans ⟨τ, ?_⟩ hv'.2
        exact g1.sub_res hR x

/-- `intersect(x, y)` of variable-disjoint terms: its instances are exactly the common instances, and it
is `None` iff there are none. -/
theorem C09_intersect {k f : Nat} {x y : Tm} (hd : Disjoint (vars x) (vars y)) {r : Option Tm}
    (e : intersectF k f x y (fun _ => none) = some r) :
    (r = none ↔ ¬ ∃ t, InstanceOf t x ∧ InstanceOf t y) ∧
    ∀ z, r = some z → ∀ t, InstanceOf t z ↔ InstanceOf t x ∧ InstanceOf t y := by
  have key : ∀ t, (∃ τ, Heap.Respects (fun _ => none) τ ∧ x.sub τ = y.sub τ ∧ x.sub τ = t) ↔
      InstanceOf t x ∧ InstanceOf t y := by
    intro t
    constructor
    · rintro ⟨τ, _, h1, rfl⟩; exact ⟨⟨τ, rfl⟩, ⟨τ, h1.symm⟩⟩
    · rintro ⟨⟨σ, hσ⟩, ⟨ρ, hρ⟩⟩
      refine ⟨fun n => if n ∈ vars x then σ n else ρ n, fun n t hn => by simp at hn, ?_⟩
      have h1 : x.sub (fun n => if n ∈ vars x then σ n else ρ n) = t := by
        rw [← hσ]; exact sub_congr fun n hn => by simp [hn]
      have h2 : y.sub (fun n => if n ∈ vars x then σ n else ρ n) = t := by
        rw [← hρ]; exact sub_congr fun n hn => by simp [Finset.disjoint_right.1 hd hn]
      exact ⟨by rw [h1, h2], h1⟩
  obtain ⟨h1, h2⟩ := C09_store Heap.acyclic_empty e
  refine ⟨?_, fun z hz t => ?_⟩
  · rw [h1, not_iff_not]
    constructor
    · rintro ⟨τ, a, b⟩; exact ⟨_, (key _).1 ⟨τ, a, b, rfl⟩⟩
    · rintro ⟨t, ht⟩; obtain ⟨τ, a, b, _⟩ := (key t).2 ht; exact ⟨τ, a, b⟩
  · rw [h2 z hz, key]

theorem C09_terminates {h : Heap} (hac : Heap.Acyclic h) (k : Nat) (x y : Tm) :
    ∃ N, ∀ f ≥ N, intersectF k f x y h ≠ none := by
  obtain ⟨r, hs, N, hN⟩ := Heap.unify_result (Heap.good_iff_acyclic.2 hac) x y
  cases hs with
  | fail _ => exact ⟨N, fun f hf => by simp [intersectF, hN f hf, Heap.run]⟩
  | ok bs g1 _ _ _ _ =>
    obtain ⟨M, hM⟩ := C08_terminates (Heap.good_iff_acyclic.1 g1) k x
    refine ⟨max N M, fun f hf => ?_⟩
    have h1 := hM f (by omega)
    simp only [intersectF, hN f (by omega), Heap.run]
    cases h2 : freshF k (Heap.bindAll h bs) f x with
    | none => exact absurd h2 h1
    | some q => simp

section Examples
private def f2 (a b : Tm) : Tm := .app [.con (.str "f"), a, b]
private def ca : Tm := .con (.str "a")
-- f(X, Y) where X is bound to Y in the store: canonical form f($0,$0), and a fresh copy
example : canonF (· + 100) (Heap.upd (fun _ => none) 0 (some (.var 1))) 20 (f2 (.var 0) (.var 1)) =
    some (f2 (.var 100) (.var 100)) := by rfl
example : freshF 7 (fun _ => none) 20 (f2 (.var 3) (f2 (.var 1) (.var 3))) =
    some (f2 (.var 7) (f2 (.var 8) (.var 7)), 9) := by rfl
example : Function.Injective (· + 100 : Nat → Nat) := fun a b h => by simpa using h
-- intersect(f(X, X), f(a, Y)) = f(a, a)
example : intersectF 9 50 (f2 (.var 0) (.var 0)) (f2 ca (.var 1)) (fun _ => none) = some (some (f2 ca ca)) := by rfl
example : Disjoint (vars (f2 (.var 0) (.var 0))) (vars (f2 ca (.var 1))) := by decide
end Examples

end Verif
