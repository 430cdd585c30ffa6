/-
Totality and exactness of `unify` for every acyclic store (the induction behind C01-C04).
-/
import Verif.UnifyLemmas

set_option linter.unusedSectionVars false
set_option linter.unusedSimpArgs false

namespace Verif
open Tm
namespace Heap

def isNV : Tm → Nat
  | .var _ => 0
  | _ => 1

/-- prepend the initial `if x == y` test to the analysis of the remaining branches -/
theorem Result.of_ne {h : Heap} (hg : Good h) {x y : Tm}
    (H : x.sub (res h) ≠ y.sub (res h) → ∃ r, Spec h x y r ∧
      Evt (fun f => ∀ (S : Type) (body : Body S) (s : S),
        Heap.eqF h f x y = some false → unifyF (f + 1) x y body h s = run r body h s)) :
    Result h x y := by
  by_cases e : x.sub (res h) = y.sub (res h)
  · refine ⟨some [], Spec.of_eq hg e, Evt.succ ((hg.eqF x y).mono fun f hf S body s => ?_)⟩
    simp only [e, decide_true] at hf
    unfold unifyF
    simp only [hf, run, bindAll, unbindAll]
    cases body h s with
    | none => rfl
    | some p => rfl
  · obtain ⟨r, hs, hr⟩ := H e
    refine ⟨r, hs, Evt.succ ((hr.and (hg.eqF x y)).mono fun f hf S body s => ?_)⟩
    refine hf.1 S body s ?_
    rw [hf.2]; simp [e]

theorem Result.bind {h : Heap} (hg : Good h) {n : Nat} {y : Tm} (hn : h n = none)
    (hne : y.sub (res h) ≠ .var n) :
    ∃ r, Spec h (.var n) y r ∧ Evt (fun f => ∀ (S : Type) (body : Body S) (s : S),
      bindF f n y body h s = run r body h s) := by
  by_cases ho : n ∈ vars (y.sub (res h))
  · refine ⟨none, Spec.occurs hg ho hne, Evt.succ ((hg.occursF hn y).mono fun f hf S body s => ?_)⟩
    simp only [ho, decide_true] at hf
    simp only [bindF, hf, run]
  · refine ⟨_, Spec.bind hg hn ho, Evt.succ ((hg.occursF hn y).mono fun f hf S body s => ?_)⟩
    simp only [ho, decide_false] at hf
    simp only [bindF, hf, run, bindAll, unbindAll, hn]
    cases body (h.upd n (some y)) s with
    | none => rfl
    | some p => rfl

theorem unify_total : ∀ U, PL U ∧ (∀ N h, Good h → ∀ x y f1 f2, derefF h f1 x = some (x.sub (res h)) →
    derefF h f2 y = some (y.sub (res h)) → (free h x y).card ≤ U → 2 * (f1 + f2) + isNV x ≤ N →
    Result h x y) := by
  intro U
  induction U using Nat.strong_induction_on with
  | _ U ihU =>
  have ihPL : ∀ U' < U, PL U' := fun U' h => (ihU U' h).1
  have main : ∀ N h, Good h → ∀ x y f1 f2, derefF h f1 x = some (x.sub (res h)) →
      derefF h f2 y = some (y.sub (res h)) → (free h x y).card ≤ U → 2 * (f1 + f2) + isNV x ≤ N →
      Result h x y := by
    intro N
    induction N with
    | zero =>
      intro h hg x y f1 f2 ex ey hU hN
      obtain ⟨g1, rfl⟩ := deref_cases ex; omega
    | succ N ih =>
      intro h hg x y f1 f2 ex ey hU hN
      obtain ⟨g1, rfl⟩ := deref_cases ex
      obtain ⟨g2, rfl⟩ := deref_cases ey
      refine Result.of_ne hg fun hne => ?_
      cases x with
      | var n =>
        cases hn : h n with
        | some t =>
          have et : t.sub (res h) = (Tm.var n).sub (res h) := (hg.res_bound hn).symm
          simp only [derefF, hn] at ex
          rw [← et] at ex
          obtain ⟨r, hs, hr⟩ := ih h hg t y g1 (g2 + 1) ex ey (by unfold free at hU ⊢; rw [et]; exact hU)
            (by cases t <;> simp only [isNV] at hN ⊢ <;> omega)
          refine ⟨r, hs.congr hg et rfl, hr.mono fun f e S body s heq => ?_⟩
          simp only [unifyF, heq, hn]; exact e S body s
        | none =>
          have hσn : res h n = .var n := res_unbound hn
          cases y with
          | var m =>
            cases hm : h m with
            | some t =>
              have et : t.sub (res h) = (Tm.var m).sub (res h) := (hg.res_bound hm).symm
              simp only [derefF, hm] at ey
              rw [← et] at ey
              obtain ⟨r, hs, hr⟩ := ih h hg (.var n) t (g1 + 1) g2 ex ey
                (by unfold free at hU ⊢; rw [et]; exact hU) (by simp only [isNV] at hN ⊢; omega)
              refine ⟨r, hs.congr hg rfl et, hr.mono fun f e S body s heq => ?_⟩
              simp only [unifyF, heq, hn, hm]; exact e S body s
            | none =>
              obtain ⟨r, hs, hr⟩ := Result.bind hg (y := .var m) hn (by rw [← hσn]; exact Ne.symm hne)
              refine ⟨r, hs, hr.mono fun f e S body s heq => ?_⟩
              simp only [unifyF, heq, hn, hm]; exact e S body s
          | con c =>
            obtain ⟨r, hs, hr⟩ := Result.bind hg (y := .con c) hn (by simp)
            refine ⟨r, hs, hr.mono fun f e S body s heq => ?_⟩
            simp only [unifyF, heq, hn]; exact e S body s
          | app bs =>
            obtain ⟨r, hs, hr⟩ := Result.bind hg (y := .app bs) hn (by simp)
            refine ⟨r, hs, hr.mono fun f e S body s heq => ?_⟩
            simp only [unifyF, heq, hn]; exact e S body s
      | con c =>
        cases y with
        | var m =>
          obtain ⟨r, hs, hr⟩ := ih h hg (.var m) (.con c) (g2 + 1) (g1 + 1) ey ex
            (by unfold free at hU ⊢; rw [Finset.union_comm]; exact hU) (by simp only [isNV] at hN ⊢; omega)
          refine ⟨r, hs.symm, hr.mono fun f e S body s heq => ?_⟩
          simp only [unifyF, heq]; exact e S body s
        | con c' =>
          refine ⟨none, .fail fun τ _ e => hne (by simpa using e), Evt.of_all fun f S body s heq => ?_⟩
          simp only [unifyF, heq, run]
        | app bs =>
          refine ⟨none, .fail fun τ _ e => by simp at e, Evt.of_all fun f S body s heq => ?_⟩
          simp only [unifyF, heq, run]
      | app as =>
        cases y with
        | var m =>
          obtain ⟨r, hs, hr⟩ := ih h hg (.var m) (.app as) (g2 + 1) (g1 + 1) ey ex
            (by unfold free at hU ⊢; rw [Finset.union_comm]; exact hU) (by simp only [isNV] at hN ⊢; omega)
          refine ⟨r, hs.symm, hr.mono fun f e S body s heq => ?_⟩
          simp only [unifyF, heq]; exact e S body s
        | con c' =>
          refine ⟨none, .fail fun τ _ e => by simp at e, Evt.of_all fun f S body s heq => ?_⟩
          simp only [unifyF, heq, run]
        | app bs =>
          by_cases hl : as.length = bs.length
          · obtain ⟨r, hs, hr⟩ := list_step ihPL hg as bs hl hU (fun p hp => by
              obtain ⟨as', e1, ea⟩ := deref_app.1 ex
              obtain ⟨bs', e2, eb⟩ := deref_app.1 ey
              have ha : p.1 ∈ as := (List.of_mem_zip hp).1
              have hb : p.2 ∈ bs := (List.of_mem_zip hp).2
              have da : derefF h g1 p.1 = some (p.1.sub (res h)) := by
                clear * - ea ha
                induction ea with
                | nil => simp at ha
                | cons h1 _ ih2 =>
                  rcases List.mem_cons.1 ha with e | ha
                  · rw [e, h1, deref_eq_sub h1]
                  · exact ih2 ha
              have db : derefF h g2 p.2 = some (p.2.sub (res h)) := by
                clear * - eb hb
                induction eb with
                | nil => simp at hb
                | cons h1 _ ih2 =>
                  rcases List.mem_cons.1 hb with e | hb
                  · rw [e, h1, deref_eq_sub h1]
                  · exact ih2 hb
              refine ih h hg p.1 p.2 g1 g2 da db (le_trans (Finset.card_le_card ?_) hU) ?_
              · intro z hz
                simp only [free, Finset.mem_union, sub_app, vars_app, mem_varsL, List.mem_map] at hz ⊢
                rcases hz with hz | hz
                · exact .inl ⟨_, ⟨_, ha, rfl⟩, hz⟩
                · exact .inr ⟨_, ⟨_, hb, rfl⟩, hz⟩
              · have : isNV p.1 ≤ 1 := by cases p.1 <;> simp [isNV]
                simp only [isNV] at hN; omega)
            refine ⟨r, hs, hr.mono fun f e S body s heq => ?_⟩
            simp only [unifyF, heq, hl, if_true]; exact e S body s
          · refine ⟨none, .fail fun τ _ e => hl ?_, Evt.of_all fun f S body s heq => ?_⟩
            · simp only [sub_app, Tm.app.injEq] at e
              simpa using congrArg List.length e
            · simp only [unifyF, heq, hl, if_false, run]
  refine ⟨fun h hg xs ys hl hU => list_step ihPL hg xs ys hl hU fun p hp => ?_, main⟩
  obtain ⟨f1, e1⟩ := hg.deref p.1
  obtain ⟨f2, e2⟩ := hg.deref p.2
  refine main _ h hg p.1 p.2 f1 f2 e1 e2 (le_trans (Finset.card_le_card ?_) hU) (le_refl _)
  intro z hz
  simp only [free, Finset.mem_union, sub_app, vars_app, mem_varsL, List.mem_map] at hz ⊢
  rcases hz with hz | hz
  · exact .inl ⟨_, ⟨_, (List.of_mem_zip hp).1, rfl⟩, hz⟩
  · exact .inr ⟨_, ⟨_, (List.of_mem_zip hp).2, rfl⟩, hz⟩

theorem unify_result {h : Heap} (hg : Good h) (x y : Tm) : Result h x y := by
  obtain ⟨f1, e1⟩ := hg.deref x
  obtain ⟨f2, e2⟩ := hg.deref y
  exact (unify_total _).2 _ h hg x y f1 f2 e1 e2 (le_refl _) (le_refl _)

theorem unifyN_result {h : Heap} (hg : Good h) (xs ys : List Tm) (hl : xs.length = ys.length) :
    ResultN h xs ys := (unify_total _).1 h hg xs ys hl (le_refl _)

end Heap
end Verif
