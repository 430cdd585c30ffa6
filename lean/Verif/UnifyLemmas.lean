/-
What `unify` does, in closed form: either the terms have no common instance compatible with the
store, or the body runs exactly once under a list of new bindings that is undone afterwards.
-/
import Verif.HeapLemmas

set_option linter.unusedSectionVars false
set_option linter.unusedSimpArgs false

namespace Verif
open Tm
namespace Heap

/-- make bindings, in order -/
def bindAll : Heap → List (Nat × Tm) → Heap
  | h, [] => h
  | h, (x, t) :: bs => bindAll (h.upd x (some t)) bs

/-- reset the bound variables, last binding first -/
def unbindAll : List (Nat × Tm) → Heap → Heap
  | [], h => h
  | (x, _) :: bs, h => (unbindAll bs h).upd x none

/-- run a body under bindings (or not at all) -/
def run {S : Type} : Option (List (Nat × Tm)) → Body S → Body S
  | none, _, h, s => some (h, s, .done)
  | some bs, body, h, s =>
    match body (bindAll h bs) s with
    | none => none
    | some (h', s', sig) => some (unbindAll bs h', s', sig)

theorem bindAll_append (h : Heap) (bs cs : List (Nat × Tm)) :
    bindAll h (bs ++ cs) = bindAll (bindAll h bs) cs := by
  induction bs generalizing h with
  | nil => rfl
  | cons p bs ih => simp [bindAll, ih]

theorem unbindAll_append (h : Heap) (bs cs : List (Nat × Tm)) :
    unbindAll (bs ++ cs) h = unbindAll bs (unbindAll cs h) := by
  induction bs with
  | nil => rfl
  | cons p bs ih => simp [unbindAll, ih]

theorem unbindAll_bindAll {h : Heap} {bs : List (Nat × Tm)} (hn : (bs.map (·.1)).Nodup)
    (hu : ∀ p ∈ bs, h p.1 = none) : unbindAll bs (bindAll h bs) = h := by
  induction bs generalizing h with
  | nil => rfl
  | cons p bs ih =>
    obtain ⟨x, t⟩ := p
    simp only [List.map_cons, List.nodup_cons] at hn
    simp only [bindAll, unbindAll]
    rw [ih hn.2]
    · funext n
      by_cases hx : n = x
      · subst hx; simp; exact (hu (n, t) (by simp)).symm
      · simp [upd_ne _ _ hx]
    · intro q hq
      have : q.1 ≠ x := by rintro rfl; exact hn.1 (List.mem_map.2 ⟨q, hq, rfl⟩)
      rw [upd_ne _ _ this]; exact hu q (by simp [hq])

/-- The specification of one attempt to unify `x` and `y` under store `h`. -/
inductive Spec (h : Heap) (x y : Tm) : Option (List (Nat × Tm)) → Prop
  | fail : (∀ τ, Respects h τ → x.sub τ ≠ y.sub τ) → Spec h x y none
  | ok (bs) : Good (bindAll h bs) →
      (∀ τ, Respects (bindAll h bs) τ ↔ Respects h τ ∧ x.sub τ = y.sub τ) →
      (bs.map (·.1)).Nodup →
      (∀ p ∈ bs, p.1 ∈ vars (x.sub (res h)) ∪ vars (y.sub (res h))) →
      (∀ t z, z ∈ vars (sub (res (bindAll h bs)) t) →
        (z ∈ vars (t.sub (res h)) ∨ z ∈ vars (x.sub (res h)) ∨ z ∈ vars (y.sub (res h))) ∧
        z ∉ bs.map (·.1)) →
      Spec h x y (some bs)

theorem Spec.congr {h : Heap} (hg : Good h) {x x2 y y2 : Tm} {r} (hs : Spec h x y r)
    (hx : x.sub (res h) = x2.sub (res h)) (hy : y.sub (res h) = y2.sub (res h)) : Spec h x2 y2 r := by
  have hX : ∀ τ, Respects h τ → x.sub τ = x2.sub τ := fun τ hτ => by
    rw [← hg.sub_res hτ, ← hg.sub_res hτ x2, hx]
  have hY : ∀ τ, Respects h τ → y.sub τ = y2.sub τ := fun τ hτ => by
    rw [← hg.sub_res hτ, ← hg.sub_res hτ y2, hy]
  cases hs with
  | fail h1 => exact .fail fun τ hτ => by rw [← hX τ hτ, ← hY τ hτ]; exact h1 τ hτ
  | ok bs h1 h2 h3 h4 h5 =>
    refine .ok bs h1 (fun τ => ?_) h3 (by rw [← hx, ← hy]; exact h4) (by rw [← hx, ← hy]; exact h5)
    rw [h2]
    exact and_congr_right fun hτ => by rw [hX τ hτ, hY τ hτ]

theorem Spec.symm {h : Heap} {x y : Tm} {r} (hs : Spec h x y r) : Spec h y x r := by
  cases hs with
  | fail h1 => exact .fail fun τ hτ => (h1 τ hτ).symm
  | ok bs h1 h2 h3 h4 h5 =>
    refine .ok bs h1 (fun τ => ?_) h3 (by rw [Finset.union_comm]; exact h4) (fun t z hz => ?_)
    · rw [h2, eq_comm]
    · obtain ⟨h6, h7⟩ := h5 t z hz; exact ⟨by tauto, h7⟩

theorem Spec.of_eq {h : Heap} (hg : Good h) {x y : Tm} (e : x.sub (res h) = y.sub (res h)) :
    Spec h x y (some []) := by
  refine .ok [] hg (fun τ => ?_) (by simp) (by simp) (fun t z hz => ⟨.inl hz, by simp⟩)
  refine ⟨fun hτ => ⟨hτ, ?_⟩, fun hτ => hτ.1⟩
  rw [← hg.sub_res hτ x, ← hg.sub_res hτ y, e]

theorem Spec.bind {h : Heap} (hg : Good h) {n : Nat} {y : Tm} (hn : h n = none)
    (hy : n ∉ vars (y.sub (res h))) : Spec h (.var n) y (some [(n, y)]) := by
  have hu := hg.upd hn hy
  refine .ok _ hu.1 (fun τ => ?_) (by simp) ?_ (fun t z hz => ?_)
  · simp only [bindAll, respects_upd hn, sub_var]
  · simp [sub_var, res_unbound hn]
  · simp only [bindAll] at hz
    rw [hu.2] at hz
    have := vars_sub_single hz
    simp only [Finset.mem_union, Finset.mem_erase] at this
    simp only [List.map_cons, List.map_nil, List.mem_singleton]
    rcases this with h1 | h1
    · exact ⟨.inl h1.2, h1.1⟩
    · exact ⟨.inr (.inr h1), by rintro rfl; exact hy h1⟩

theorem Spec.occurs {h : Heap} (hg : Good h) {n : Nat} {y : Tm}
    (hy : n ∈ vars (y.sub (res h))) (hne : y.sub (res h) ≠ .var n) : Spec h (.var n) y none := by
  refine .fail fun τ hτ e => ?_
  have := (size_le_sub (σ := τ) hy).2 hne
  rw [hg.sub_res hτ, ← e] at this
  simp at this

theorem Spec.cons {h : Heap} {a b : Tm} {as bs : List Tm} {cs : List (Nat × Tm)} {r}
    (h1 : Spec h a b (some cs)) (h2 : Spec (bindAll h cs) (.app as) (.app bs) r) :
    Spec h (.app (a :: as)) (.app (b :: bs)) (r.map (cs ++ ·)) := by
  cases h1 with
  | ok _ g1 s1 n1 d1 e1 =>
    cases h2 with
    | fail f2 =>
      refine .fail fun τ hτ e => ?_
      simp only [sub_app, List.map_cons, Tm.app.injEq, List.cons.injEq] at e
      exact f2 τ ((s1 τ).2 ⟨hτ, e.1⟩) (by simpa using e.2)
    | ok ds g2 s2 n2 d2 e2 =>
      refine .ok _ (by rw [bindAll_append]; exact g2) (fun τ => ?_) ?_ ?_ ?_
      · rw [bindAll_append, s2, s1]
        simp only [sub_app, List.map_cons, Tm.app.injEq, List.cons.injEq]
        tauto
      · rw [List.map_append, List.nodup_append]
        refine ⟨n1, n2, fun x hx y hy => ?_⟩
        rintro rfl
        obtain ⟨p, hp, rfl⟩ := List.mem_map.1 hy
        have := d2 p hp
        simp only [Finset.mem_union] at this
        rcases this with hz | hz
        · exact (e1 _ _ hz).2 hx
        · exact (e1 _ _ hz).2 hx
      · intro p hp
        simp only [sub_app, List.map_cons, vars_app, varsL_cons, Finset.mem_union]
        rcases List.mem_append.1 hp with hp | hp
        · have := d1 p hp; simp only [Finset.mem_union] at this; tauto
        · have := d2 p hp
          simp only [Finset.mem_union] at this
          rcases this with hz | hz
          · have := (e1 _ _ hz).1; simp only [sub_app, vars_app] at this; tauto
          · have := (e1 _ _ hz).1; simp only [sub_app, vars_app] at this; tauto
      · intro t z hz
        rw [bindAll_append] at hz
        obtain ⟨hz1, hz2⟩ := e2 t z hz
        simp only [sub_app, List.map_cons, vars_app, varsL_cons, Finset.mem_union, List.map_append,
          List.mem_append, not_or]
        rcases hz1 with hz | hz | hz
        · obtain ⟨h3, h4⟩ := e1 _ _ hz; exact ⟨by tauto, h4, hz2⟩
        · obtain ⟨h3, h4⟩ := e1 _ _ hz
          simp only [sub_app, vars_app] at h3; exact ⟨by tauto, h4, hz2⟩
        · obtain ⟨h3, h4⟩ := e1 _ _ hz
          simp only [sub_app, vars_app] at h3; exact ⟨by tauto, h4, hz2⟩

theorem Spec.cons_fail {h : Heap} {a b : Tm} {as bs : List Tm}
    (h1 : Spec h a b none) : Spec h (.app (a :: as)) (.app (b :: bs)) none := by
  cases h1 with
  | fail f1 =>
    refine .fail fun τ hτ e => f1 τ hτ ?_
    simp only [sub_app, List.map_cons, Tm.app.injEq, List.cons.injEq] at e
    exact e.1

/-- Outcome of `unify x y` under `h`. -/
def Result (h : Heap) (x y : Tm) : Prop :=
  ∃ r, Spec h x y r ∧ Evt (fun f => ∀ (S : Type) (body : Body S) (s : S), unifyF f x y body h s = run r body h s)

def ResultN (h : Heap) (xs ys : List Tm) : Prop :=
  ∃ r, Spec h (.app xs) (.app ys) r ∧
    Evt (fun f => ∀ (S : Type) (body : Body S) (s : S), unifyNF f xs ys body h s = run r body h s)

/-- number of variables still free in the two terms -/
noncomputable def free (h : Heap) (x y : Tm) : Finset Nat := vars (x.sub (res h)) ∪ vars (y.sub (res h))

def PL (U : Nat) : Prop := ∀ h, Good h → ∀ xs ys, xs.length = ys.length →
  (free h (.app xs) (.app ys)).card ≤ U → ResultN h xs ys

theorem run_append {S : Type} (cs ds : List (Nat × Tm)) (body : Body S) (h : Heap) (s : S) :
    run (some cs) (fun h' s' => run (some ds) body h' s') h s = run (some (cs ++ ds)) body h s := by
  simp only [run, bindAll_append]
  cases body (bindAll (bindAll h cs) ds) s with
  | none => rfl
  | some p => obtain ⟨h', s', sig⟩ := p; simp [unbindAll_append]

theorem list_step {U : Nat} (ihU : ∀ U' < U, PL U') {h : Heap} (hg : Good h) :
    ∀ xs ys : List Tm, xs.length = ys.length → (free h (.app xs) (.app ys)).card ≤ U →
      (∀ p ∈ xs.zip ys, Result h p.1 p.2) → ResultN h xs ys := by
  intro xs
  induction xs with
  | nil =>
    intro ys hl _ _
    cases ys with
    | cons _ _ => simp at hl
    | nil =>
      refine ⟨some [], Spec.of_eq hg rfl, Evt.of_succ fun f S body s => ?_⟩
      simp only [unifyNF, run, bindAll, unbindAll]
      cases body h s with
      | none => rfl
      | some p => rfl
  | cons x xs ih =>
    intro ys hl hU hel
    cases ys with
    | nil => simp at hl
    | cons y ys =>
      simp only [List.length_cons, Nat.add_right_cancel_iff] at hl
      obtain ⟨r, hs, hr⟩ := hel (x, y) (by simp)
      simp only at hs hr
      cases r with
      | none =>
        refine ⟨none, hs.cons_fail, Evt.succ (hr.mono fun f e S body s => ?_)⟩
        simp only [unifyNF, e, run]
      | some cs =>
        have key : ResultN (bindAll h cs) xs ys := by
          by_cases hc : cs = []
          · subst hc
            refine ih ys hl (le_trans (Finset.card_le_card ?_) hU) (fun p hp => hel p (by simp [hp]))
            intro z hz
            simp only [free, sub_app, List.map_cons, vars_app, varsL_cons, Finset.mem_union] at hz ⊢
            tauto
          · cases hs with
            | ok _ g1 s1 n1 d1 e1 =>
              obtain ⟨p, hp⟩ := List.exists_mem_of_ne_nil cs hc
              refine ihU _ ?_ _ g1 xs ys hl (le_refl _)
              refine lt_of_lt_of_le (Finset.card_lt_card ?_) hU
              rw [Finset.ssubset_iff_of_subset]
              · refine ⟨p.1, ?_, ?_⟩
                · have := d1 p hp
                  simp only [free, sub_app, List.map_cons, vars_app, varsL_cons, Finset.mem_union] at this ⊢
                  tauto
                · simp only [free, Finset.mem_union, not_or]
                  have hm : p.1 ∈ cs.map (·.1) := List.mem_map.2 ⟨p, hp, rfl⟩
                  exact ⟨fun hz => (e1 _ _ hz).2 hm, fun hz => (e1 _ _ hz).2 hm⟩
              · intro z hz
                simp only [free, Finset.mem_union] at hz
                rcases hz with hz | hz
                · have := (e1 _ _ hz).1
                  simp only [free, sub_app, List.map_cons, vars_app, varsL_cons, Finset.mem_union] at this ⊢
                  tauto
                · have := (e1 _ _ hz).1
                  simp only [free, sub_app, List.map_cons, vars_app, varsL_cons, Finset.mem_union] at this ⊢
                  tauto
        obtain ⟨r2, hs2, hr2⟩ := key
        refine ⟨_, hs.cons hs2, Evt.succ ((hr.and hr2).mono fun f e S body s => ?_)⟩
        obtain ⟨e1, e2⟩ := e
        simp only [unifyNF, e1]
        cases r2 with
        | none =>
          simp only [run, e2, Option.map_none]
          cases hs with
          | ok _ g1 s1 n1 d1 _ =>
            rw [unbindAll_bindAll n1 fun p hp => ?_]
            have := d1 p hp
            simp only [Finset.mem_union] at this
            rcases this with hz | hz
            · exact hg.vars_res hz
            · exact hg.vars_res hz
        | some ds =>
          rw [Option.map_some, ← run_append]
          simp only [run, e2]

end Heap
end Verif
