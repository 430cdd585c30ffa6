/-
Property C05: `Subst().mgu` computes most general unifiers.
-/
import Verif.Subst
import Verif.UnifyThm

set_option linter.unusedSectionVars false
set_option linter.unusedSimpArgs false

namespace Verif
open Tm
namespace Subst
open Heap

def MResult (h : Heap) (x y : Tm) : Prop :=
  ∃ r, Spec h x y r ∧ Evt (fun f => mguF f h x y = some (r.map (bindAll h)))

def MResultL (h : Heap) (xs ys : List Tm) : Prop :=
  ∃ r, Spec h (.app xs) (.app ys) r ∧ Evt (fun f => mguLF f h xs ys = some (r.map (bindAll h)))

def MPL (U : Nat) : Prop := ∀ h, Good h → ∀ xs ys, xs.length = ys.length →
  (free h (.app xs) (.app ys)).card ≤ U → MResultL h xs ys

theorem mlist_step {U : Nat} (ihU : ∀ U' < U, MPL U') {h : Heap} (hg : Good h) :
    ∀ xs ys : List Tm, xs.length = ys.length → (free h (.app xs) (.app ys)).card ≤ U →
      (∀ p ∈ xs.zip ys, MResult h p.1 p.2) → MResultL h xs ys := by
  intro xs
  induction xs with
  | nil =>
    intro ys hl _ _
    cases ys with
    | cons _ _ => simp at hl
    | nil => exact ⟨some [], Spec.of_eq hg rfl, Evt.of_succ fun f => by simp [mguLF, bindAll]⟩
  | cons x xs ih =>
    intro ys hl hU hel
    cases ys with
    | nil => simp at hl
    | cons y ys =>
      simp only [List.length_cons, Nat.add_right_cancel_iff] at hl
      obtain ⟨r, hs, hr⟩ := hel (x, y) (by simp)
      simp only at hs hr
      cases r with
      | none =>
        refine ⟨none, hs.cons_fail, Evt.succ (hr.mono fun f e => ?_)⟩
        simp only [mguLF, e, Option.map_none]
      | some cs =>
        have key : MResultL (bindAll h cs) xs ys := by
          by_cases hc : cs = []
          · subst hc
            refine ih ys hl (le_trans (Finset.card_le_card ?_) hU) (fun p hp => hel p (by simp [hp]))
            intro z hz
            simp only [free, sub_app, List.map_cons, vars_app, varsL_cons, Finset.mem_union] at hz ⊢
            tauto
          · cases hs with
            | ok _ g1 s1 n1 d1 e1 =>
              obtain ⟨p, hp⟩ := List.exists_mem_of_ne_nil cs hc
              refine ihU _ ?_ _ g1 xs ys hl (le_refl _)
              refine lt_of_lt_of_le (Finset.card_lt_card ?_) hU
              rw [Finset.ssubset_iff_of_subset]
              · refine ⟨p.1, ?_, ?_⟩
                · have := d1 p hp
                  simp only [free, sub_app, List.map_cons, vars_app, varsL_cons, Finset.mem_union] at this ⊢
                  tauto
                · simp only [free, Finset.mem_union, not_or]
                  have hm : p.1 ∈ cs.map (·.1) := List.mem_map.2 ⟨p, hp, rfl⟩
                  exact ⟨fun hz => (e1 _ _ hz).2 hm, fun hz => (e1 _ _ hz).2 hm⟩
              · intro z hz
                simp only [free, Finset.mem_union] at hz
                rcases hz with hz | hz
                · have := (e1 _ _ hz).1
                  simp only [free, sub_app, List.map_cons, vars_app, varsL_cons, Finset.mem_union] at this ⊢
                  tauto
                · have := (e1 _ _ hz).1
                  simp only [free, sub_app, List.map_cons, vars_app, varsL_cons, Finset.mem_union] at this ⊢
                  tauto
        obtain ⟨r2, hs2, hr2⟩ := key
        refine ⟨_, hs.cons hs2, Evt.succ ((hr.and hr2).mono fun f e => ?_)⟩
        obtain ⟨e1, e2⟩ := e
        simp only [mguLF, e1, Option.map_some, e2, Option.map_map]
        congr 2
        funext ds
        simp [bindAll_append]

theorem MResult.bind {h : Heap} (hg : Good h) {n : Nat} {y : Tm} (hn : h n = none)
    (hne : y.sub (res h) ≠ .var n) :
    ∃ r, Spec h (.var n) y r ∧ Evt (fun f => mbindF f h n y = some (r.map (bindAll h))) := by
  by_cases ho : n ∈ vars (y.sub (res h))
  · refine ⟨none, Spec.occurs hg ho hne, Evt.succ ((hg.occursF hn y).mono fun f hf => ?_)⟩
    simp only [ho, decide_true] at hf
    simp only [mbindF, hf, Option.map_none]
  · refine ⟨_, Spec.bind hg hn ho, Evt.succ ((hg.occursF hn y).mono fun f hf => ?_)⟩
    simp only [ho, decide_false] at hf
    simp only [mbindF, hf, Option.map_some, bindAll]

theorem mgu_total : ∀ U, MPL U ∧ (∀ N h, Good h → ∀ x y f1 f2, derefF h f1 x = some (x.sub (res h)) →
    derefF h f2 y = some (y.sub (res h)) → (free h x y).card ≤ U → 2 * (f1 + f2) + isNV x ≤ N →
    MResult h x y) := by
  intro U
  induction U using Nat.strong_induction_on with
  | _ U ihU =>
  have ihPL : ∀ U' < U, MPL U' := fun U' h => (ihU U' h).1
  have main : ∀ N h, Good h → ∀ x y f1 f2, derefF h f1 x = some (x.sub (res h)) →
      derefF h f2 y = some (y.sub (res h)) → (free h x y).card ≤ U → 2 * (f1 + f2) + isNV x ≤ N →
      MResult h x y := by
    intro N
    induction N with
    | zero =>
      intro h hg x y f1 f2 ex ey hU hN
      obtain ⟨g1, rfl⟩ := deref_cases ex; omega
    | succ N ih =>
      intro h hg x y f1 f2 ex ey hU hN
      obtain ⟨g1, rfl⟩ := deref_cases ex
      obtain ⟨g2, rfl⟩ := deref_cases ey
      by_cases hxy : x = y
      · subst hxy
        exact ⟨some [], Spec.of_eq hg rfl, Evt.of_succ fun f => by simp [mguF, bindAll]⟩
      cases x with
      | var n =>
        cases hn : h n with
        | some t =>
          have et : t.sub (res h) = (Tm.var n).sub (res h) := (hg.res_bound hn).symm
          simp only [derefF, hn] at ex
          rw [← et] at ex
          obtain ⟨r, hs, hr⟩ := ih h hg t y g1 (g2 + 1) ex ey (by unfold free at hU ⊢; rw [et]; exact hU)
            (by cases t <;> simp only [isNV] at hN ⊢ <;> omega)
          refine ⟨r, hs.congr hg et rfl, Evt.succ (hr.mono fun f e => ?_)⟩
          rw [mguF.eq_def]; simp only [hxy, if_false, hn]; exact e
        | none =>
          have hσn : res h n = .var n := res_unbound hn
          cases y with
          | var m =>
            cases hm : h m with
            | some t =>
              have et : t.sub (res h) = (Tm.var m).sub (res h) := (hg.res_bound hm).symm
              simp only [derefF, hm] at ey
              rw [← et] at ey
              obtain ⟨r, hs, hr⟩ := ih h hg (.var n) t (g1 + 1) g2 ex ey
                (by unfold free at hU ⊢; rw [et]; exact hU) (by simp only [isNV] at hN ⊢; omega)
              refine ⟨r, hs.congr hg rfl et, Evt.succ (hr.mono fun f e => ?_)⟩
              rw [mguF.eq_def]; simp only [hxy, if_false, hn, hm]; exact e
            | none =>
              obtain ⟨r, hs, hr⟩ := MResult.bind hg (y := .var m) hn
                (by rw [sub_var, res_unbound hm]; exact Ne.symm hxy)
              refine ⟨r, hs, Evt.succ (hr.mono fun f e => ?_)⟩
              rw [mguF.eq_def]; simp only [hxy, if_false, hn, hm]; exact e
          | con c =>
            obtain ⟨r, hs, hr⟩ := MResult.bind hg (y := .con c) hn (by simp)
            refine ⟨r, hs, Evt.succ (hr.mono fun f e => ?_)⟩
            rw [mguF.eq_def]; simp only [hxy, if_false, hn]; exact e
          | app bs =>
            obtain ⟨r, hs, hr⟩ := MResult.bind hg (y := .app bs) hn (by simp)
            refine ⟨r, hs, Evt.succ (hr.mono fun f e => ?_)⟩
            rw [mguF.eq_def]; simp only [hxy, if_false, hn]; exact e
      | con c =>
        cases y with
        | var m =>
          obtain ⟨r, hs, hr⟩ := ih h hg (.var m) (.con c) (g2 + 1) (g1 + 1) ey ex
            (by unfold free at hU ⊢; rw [Finset.union_comm]; exact hU) (by simp only [isNV] at hN ⊢; omega)
          refine ⟨r, hs.symm, Evt.succ (hr.mono fun f e => ?_)⟩
          rw [mguF.eq_def]; simp only [hxy, if_false]; exact e
        | con c' =>
          refine ⟨none, .fail fun τ _ e => hxy (by simpa using e), Evt.of_succ fun f => ?_⟩
          rw [mguF.eq_def]; simp only [hxy, if_false, Option.map_none]
        | app bs =>
          refine ⟨none, .fail fun τ _ e => by simp at e, Evt.of_succ fun f => ?_⟩
          rw [mguF.eq_def]; simp only [hxy, if_false, Option.map_none]
      | app as =>
        cases y with
        | var m =>
          obtain ⟨r, hs, hr⟩ := ih h hg (.var m) (.app as) (g2 + 1) (g1 + 1) ey ex
            (by unfold free at hU ⊢; rw [Finset.union_comm]; exact hU) (by simp only [isNV] at hN ⊢; omega)
          refine ⟨r, hs.symm, Evt.succ (hr.mono fun f e => ?_)⟩
          rw [mguF.eq_def]; simp only [hxy, if_false]; exact e
        | con c' =>
          refine ⟨none, .fail fun τ _ e => by simp at e, Evt.of_succ fun f => ?_⟩
          rw [mguF.eq_def]; simp only [hxy, if_false, Option.map_none]
        | app bs =>
          by_cases hl : as.length = bs.length
          · obtain ⟨r, hs, hr⟩ := mlist_step ihPL hg as bs hl hU (fun p hp => by
              obtain ⟨as', e1, ea⟩ := deref_app.1 ex
              obtain ⟨bs', e2, eb⟩ := deref_app.1 ey
              have ha : p.1 ∈ as := (List.of_mem_zip hp).1
              have hb : p.2 ∈ bs := (List.of_mem_zip hp).2
              have da : derefF h g1 p.1 = some (p.1.sub (res h)) := by
                clear * - ea ha
                induction ea with
                | nil => simp at ha
                | cons h1 _ ih2 =>
                  rcases List.mem_cons.1 ha with e | ha
                  · rw [e, h1, deref_eq_sub h1]
                  · exact ih2 ha
              have db : derefF h g2 p.2 = some (p.2.sub (res h)) := by
                clear * - eb hb
                induction eb with
                | nil => simp at hb
                | cons h1 _ ih2 =>
                  rcases List.mem_cons.1 hb with e | hb
                  · rw [e, h1, deref_eq_sub h1]
                  · exact ih2 hb
              refine ih h hg p.1 p.2 g1 g2 da db (le_trans (Finset.card_le_card ?_) hU) ?_
              · intro z hz
                simp only [free, Finset.mem_union, sub_app, vars_app, mem_varsL, List.mem_map] at hz ⊢
                rcases hz with hz | hz
                · exact .inl ⟨_, ⟨_, ha, rfl⟩, hz⟩
                · exact .inr ⟨_, ⟨_, hb, rfl⟩, hz⟩
              · have : isNV p.1 ≤ 1 := by cases p.1 <;> simp [isNV]
                simp only [isNV] at hN; omega)
            refine ⟨r, hs, Evt.succ (hr.mono fun f e => ?_)⟩
            rw [mguF.eq_def]; simp only [hxy, if_false, hl, if_true]; exact e
          · refine ⟨none, .fail fun τ _ e => hl ?_, Evt.of_succ fun f => ?_⟩
            · simp only [sub_app, Tm.app.injEq] at e
              simpa using congrArg List.length e
            · rw [mguF.eq_def]; simp only [hxy, if_false, hl, Option.map_none]
  refine ⟨fun h hg xs ys hl hU => mlist_step ihPL hg xs ys hl hU fun p hp => ?_, main⟩
  obtain ⟨f1, e1⟩ := hg.deref p.1
  obtain ⟨f2, e2⟩ := hg.deref p.2
  refine main _ h hg p.1 p.2 f1 f2 e1 e2 (le_trans (Finset.card_le_card ?_) hU) (le_refl _)
  intro z hz
  simp only [free, Finset.mem_union, sub_app, vars_app, mem_varsL, List.mem_map] at hz ⊢
  rcases hz with hz | hz
  · exact .inl ⟨_, ⟨_, (List.of_mem_zip hp).1, rfl⟩, hz⟩
  · exact .inr ⟨_, ⟨_, (List.of_mem_zip hp).2, rfl⟩, hz⟩

theorem mgu_result {h : Heap} (hg : Good h) (x y : Tm) : MResult h x y := by
  obtain ⟨f1, e1⟩ := hg.deref x
  obtain ⟨f2, e2⟩ := hg.deref y
  exact (mgu_total _).2 _ h hg x y f1 f2 e1 e2 (le_refl _) (le_refl _)

theorem good_empty : Good (fun _ => none) := good_iff_acyclic.2 acyclic_empty

theorem mgu_mono : ∀ f,
    (∀ s x y r, mguF f s x y = some r → mguF (f + 1) s x y = some r) ∧
    (∀ s n y r, mbindF f s n y = some r → mbindF (f + 1) s n y = some r) ∧
    (∀ s xs ys r, mguLF f s xs ys = some r → mguLF (f + 1) s xs ys = some r) := by
  intro f
  induction f with
  | zero =>
    exact ⟨fun s x y r e => by simp [mguF] at e, fun s n y r e => by simp [mbindF] at e,
      fun s xs ys r e => by simp [mguLF] at e⟩
  | succ f ih =>
    obtain ⟨ih1, ih2, ih3⟩ := ih
    refine ⟨fun s x y r e => ?_, fun s n y r e => ?_, fun s xs ys r e => ?_⟩
    · rw [mguF.eq_def] at e ⊢
      simp only at e ⊢
      split at e
      · rename_i hxy; rw [if_pos hxy]; exact e
      · rename_i hxy
        rw [if_neg hxy]
        cases x with
        | var n =>
          cases hn : s n with
          | some t => simp only [hn] at e ⊢; exact ih1 _ _ _ _ e
          | none =>
            simp only [hn] at e ⊢
            cases y with
            | var m =>
              cases hm : s m with
              | some t => simp only [hm] at e ⊢; exact ih1 _ _ _ _ e
              | none => simp only [hm] at e ⊢; exact ih2 _ _ _ _ e
            | con c => exact ih2 _ _ _ _ e
            | app bs => exact ih2 _ _ _ _ e
        | con c =>
          cases y with
          | var m => exact ih1 _ _ _ _ e
          | con c' => exact e
          | app bs => exact e
        | app as =>
          cases y with
          | var m => exact ih1 _ _ _ _ e
          | con c' => exact e
          | app bs =>
            simp only at e ⊢
            split at e
            · rename_i hl; rw [if_pos hl]; exact ih3 _ _ _ _ e
            · rename_i hl; rw [if_neg hl]; exact e
    · rw [mbindF] at e ⊢
      cases h1 : Heap.occursF s f n y with
      | none => simp [h1] at e
      | some b1 => rw [(occurs_mono f).1 _ _ _ h1]; cases b1 <;> simpa [h1] using e
    · cases xs with
      | nil => cases ys <;> simpa [mguLF] using e
      | cons x xs =>
        cases ys with
        | nil => simpa [mguLF] using e
        | cons y ys =>
          rw [mguLF] at e ⊢
          cases h1 : mguF f s x y with
          | none => simp [h1] at e
          | some r1 =>
            rw [ih1 _ _ _ _ h1]
            cases r1 with
            | none => simpa [h1] using e
            | some s' => simp only [h1] at e ⊢; exact ih3 _ _ _ _ e

theorem mgu_mono_le {f g : Nat} (hfg : f ≤ g) {s x y r} (e : mguF f s x y = some r) :
    mguF g s x y = some r := by
  induction hfg with
  | refl => exact e
  | step _ ih => exact (mgu_mono _).1 _ _ _ _ ih

/-! ### Property C05 -/

/-- `Subst().mgu(x, y)` terminates. -/
theorem C05_terminates (x y : Tm) : ∃ N, ∀ f ≥ N, mguF f (fun _ => none) x y ≠ none := by
  obtain ⟨r, _, N, hN⟩ := mgu_result good_empty x y
  exact ⟨N, fun f hf => by rw [hN f hf]; simp⟩

/-- It fails exactly when there is no unifier. -/
theorem C05_fail {x y : Tm} {f r} (e : mguF f (fun _ => none) x y = some r) :
    r = none ↔ ¬ ∃ τ : Nat → Tm, x.sub τ = y.sub τ := by
  obtain ⟨r0, hs, N, hN⟩ := mgu_result good_empty x y
  have h1 := mgu_mono_le (le_max_left f N) e
  rw [hN _ (le_max_right f N)] at h1
  have h2 := Option.some.inj h1
  have hR : ∀ τ, Respects (fun _ => none) τ := fun τ n t hn => by simp at hn
  subst h2
  cases hs with
  | fail hf => simp; exact fun τ => hf τ (hR τ)
  | ok bs g1 s1 _ _ _ => simp; exact ⟨_, ((s1 _).1 g1.respects_res).2⟩

/-- On success, applying the resulting substitution is a terminating total function `σ` with
`σ x = σ y`, `σ` idempotent, and every unifier factors through `σ`. -/
theorem C05_mgu {x y : Tm} {f s} (e : mguF f (fun _ => none) x y = some (some s)) :
    ∃ σ : Nat → Tm, (∀ t, ∃ M, ∀ g ≥ M, callF s g t = some (t.sub σ)) ∧ x.sub σ = y.sub σ ∧
      (∀ t : Tm, (t.sub σ).sub σ = t.sub σ) ∧
      ∀ τ : Nat → Tm, x.sub τ = y.sub τ → ∀ t : Tm, (t.sub σ).sub τ = t.sub τ := by
  obtain ⟨r0, hs, N, hN⟩ := mgu_result good_empty x y
  have h1 := mgu_mono_le (le_max_left f N) e
  rw [hN _ (le_max_right f N)] at h1
  have h2 := Option.some.inj h1
  have hR : ∀ τ, Respects (fun _ => none) τ := fun τ n t hn => by simp at hn
  cases hs with
  | fail hf => simp at h2
  | ok bs g1 s1 _ _ _ =>
    simp only [Option.map_some, Option.some.injEq] at h2
    subst h2
    exact ⟨res (bindAll _ bs), fun t => g1.evt_deref t, ((s1 _).1 g1.respects_res).2,
      fun t => g1.sub_res g1.respects_res t, fun τ hτ t => g1.sub_res ((s1 τ).2 ⟨hR τ, hτ⟩) t⟩

/-- `unify` (in place) and `mgu` (explicit) succeed on the same pairs. -/
theorem C05_agrees {x y : Tm} {f g r b} (e : mguF f (fun _ => none) x y = some r)
    (e' : unifiesF g x y (fun _ => none) = some b) : r.isSome = b := by
  have h1 := C05_fail e
  have h2 := C02_unifies acyclic_empty e'
  have hR : ∀ τ, Respects (fun _ => none) τ := fun τ n t hn => by simp at hn
  simp only [hR, true_and] at h2
  rw [Bool.eq_iff_iff, h2, Option.isSome_iff_ne_none, ne_eq, h1, not_not]

section Examples
-- f(X, g(X)) with f(Y, g(a)): X ↦ Y, Y ↦ a
example : ((mguF 50 (fun _ => none) (.app [.con (.str "f"), .var 0, .app [.con (.str "g"), .var 0]])
    (.app [.con (.str "f"), .var 1, .app [.con (.str "g"), .con (.str "a")]])).map
      (·.map fun s => (s 0, s 1))) = some (some (some (.var 1), some (.con (.str "a")))) := by rfl
-- X against f(X): occurs check
example : mguF 50 (fun _ => none) (.var 0) (.app [.con (.str "f"), .var 0]) = some none := by rfl
end Examples

end Subst
end Verif
