/-
What the lookup of a conjunction in chart programs enumerates: every solution exactly once, and, when every
comparison is reached with bound arguments, the enumeration ends normally.  Used for properties C26-C28,
C30, C31.
-/
import Verif.Query
import Verif.SolverThm

set_option linter.unusedSectionVars false
set_option linter.unusedSimpArgs false

namespace Verif
open Tm Heap

namespace Query
open Solver (forEach forEach_restores forEach_cons_done RunCalls unify_done litVars ground_val sub_eq_of_ground)
variable {K β S : Type}

/-! ### Restoring the store -/

theorem lookupVals_restores [One K] {f : Nat} {emb : K → β} {src : Src β} {z : BLit K} {k : β → Body S}
    (hk : ∀ b, Restores (k b)) : Restores (lookupVals f emb src z k) := by
  intro h s h' s' sig e
  unfold lookupVals at e
  cases z with
  | val c =>
    simp only at e
    split at e
    · exact hk _ _ _ _ _ _ e
    · simp at e; exact e.1.symm
  | eq x y =>
    simp only at e
    split at e
    · exact C03_no_trace _ _ _ (hk _) _ _ _ _ _ e
    · simp at e; exact e.1.symm
  | cmp o x y =>
    simp only at e
    split at e
    · split at e
      · split at e
        · exact hk _ _ _ _ _ _ e
        · simp at e; exact e.1.symm
      · simp at e; exact e.1.symm
      · simp at e
    · simp at e; exact e.1.symm
  | sub q =>
    simp only at e
    split at e
    · simp at e
    · simp at e; exact e.1.symm
    · exact forEach_restores (fun x => C03_no_trace _ _ _ (hk _)) _ _ _ _ _ _ e

theorem joinZ_restores [One K] {f : Nat} {emb : K → β} {k : List β → Body S} (hk : ∀ P, Restores (k P)) :
    ∀ (zs : List (Src β × BLit K)) acc, Restores (joinZ f emb zs acc k) := by
  intro zs
  induction zs with
  | nil => intro acc; exact hk _
  | cons p zs ih => intro acc; exact lookupVals_restores fun b => ih _

theorem getItem_restores [One K] {f : Nat} {emb : K → β} {src : Src β} {body : List (BLit K)} {k : List β → Body S}
    (hk : ∀ P, Restores (k P)) : Restores (getItem f emb src body k) := by
  unfold getItem
  split
  · exact hk _
  · exact joinZ_restores hk _ _

/-! ### What is enumerated -/

/-- the element `z` of a body, looked up in `src`, holds under `τ` with result `b` -/
def Sat1 [One K] (emb : K → β) (τ : Nat → Tm) (p : Src β × BLit K) (b : β) : Prop :=
  match p.2 with
  | .val k => p.1.bi = true ∧ b = emb k
  | .sub t => (t.sub τ, b) ∈ p.1.ent
  | .eq x y => p.1.bi = true ∧ x.sub τ = y.sub τ ∧ b = emb 1
  | .cmp o x y => p.1.bi = true ∧ o (x.sub τ) (y.sub τ) = true ∧ b = emb 1

/-- a chart: ground heads, no entry twice -/
structure Src.Ok (src : Src β) : Prop where
  ground : ∀ e ∈ src.ent, Ground e.1
  nodup : src.ent.Nodup

/-- the yields of a conjunction from store `h`: the results and the store at each yield -/
structure Yields [One K] (emb : K → β) (h : Heap) (zs : List (Src β × BLit K)) (L : List (List β × Heap)) : Prop where
  good : ∀ p ∈ L, Good p.2
  sound : ∀ p ∈ L, ∀ τ, Respects p.2 τ → Respects h τ ∧ List.Forall₂ (Sat1 emb τ) zs p.1
  complete : ∀ τ vs, Respects h τ → List.Forall₂ (Sat1 emb τ) zs vs → ∃ p ∈ L, Respects p.2 τ ∧ p.1 = vs
  disjoint : L.Pairwise fun p p' => p.1 = p'.1 → ∀ τ τ', (∀ z ∈ zs, ∀ n ∈ litVars z.2, τ n = τ' n) →
    Respects p.2 τ → Respects p'.2 τ' → False

/-- the same for one element -/
structure Yields1 [One K] (emb : K → β) (h : Heap) (z : Src β × BLit K) (L : List (β × Heap)) : Prop where
  good : ∀ p ∈ L, Good p.2
  sound : ∀ p ∈ L, ∀ τ, Respects p.2 τ → Respects h τ ∧ Sat1 emb τ z p.1
  complete : ∀ τ b, Respects h τ → Sat1 emb τ z b → ∃ p ∈ L, Respects p.2 τ ∧ p.1 = b
  disjoint : L.Pairwise fun p p' => p.1 = p'.1 → ∀ τ τ', (∀ n ∈ litVars z.2, τ n = τ' n) →
    Respects p.2 τ → Respects p'.2 τ' → False

/-- the functor of a query is a constant -/
def FnOk (z : BLit K) : Prop := ∀ t, z = .sub t → ∃ c as, t = .app (.con c :: as)

theorem offered_mem {ent : List (Tm × β)} {c : Const} {as : List Tm} {e : Tm × β} :
    e ∈ offered ent (.app (.con c :: as)) ↔ e ∈ ent ∧ hfn e.1 = some c := by
  simp [offered]

theorem lookup_spec [One K] {f : Nat} {emb : K → β} {src : Src β} (hs : src.Ok) {z : BLit K} (hz : FnOk z) {k : β → Body S}
    (hk : ∀ b, Restores (k b)) {h : Heap} (hg : Good h) {s h' s'}
    (e : lookupVals f emb src z k h s = some (h', s', .done)) :
    ∃ L, Yields1 emb h (src, z) L ∧ RunCalls k L s s' := by
  unfold lookupVals at e
  cases z with
  | val c =>
    simp only at e
    split at e
    · rename_i hb
      have := hk _ _ _ _ _ _ e
      subst this
      refine ⟨[(emb c, h')], ⟨by simp [hg], ?_, ?_, by simp⟩, .cons e (.nil _)⟩
      · rintro p hp τ hτ
        simp only [List.mem_singleton] at hp; subst hp
        exact ⟨hτ, hb, rfl⟩
      · rintro τ b hτ ⟨_, hb⟩
        exact ⟨(emb c, h'), by simp, hτ, hb.symm⟩
    · rename_i hb
      simp only [Option.some.injEq, Prod.mk.injEq, and_true] at e
      obtain ⟨rfl, rfl⟩ := e
      exact ⟨[], ⟨by simp, by simp, by rintro τ b _ ⟨h1, _⟩; exact absurd h1 hb, by simp⟩, .nil _⟩
  | eq x y =>
    simp only at e
    split at e
    · rename_i hb
      obtain ⟨rfl, hu⟩ := unify_done hg (hk _) e
      rcases hu with ⟨hf, rfl⟩ | ⟨h1, g1, g2, e⟩
      · refine ⟨[], ⟨by simp, by simp, ?_, by simp⟩, .nil _⟩
        rintro τ b hτ ⟨_, h1, _⟩
        exact absurd h1 (hf τ hτ)
      · refine ⟨[(emb 1, h1)], ⟨by simp [g1], ?_, ?_, by simp⟩, .cons e (.nil _)⟩
        · rintro p hp τ hτ
          simp only [List.mem_singleton] at hp; subst hp
          exact ⟨((g2 τ).1 hτ).1, hb, ((g2 τ).1 hτ).2, rfl⟩
        · rintro τ b hτ ⟨_, h2, h3⟩
          exact ⟨(emb 1, h1), by simp, (g2 τ).2 ⟨hτ, h2⟩, h3.symm⟩
    · rename_i hb
      simp only [Option.some.injEq, Prod.mk.injEq, and_true] at e
      obtain ⟨rfl, rfl⟩ := e
      exact ⟨[], ⟨by simp, by simp, by rintro τ b _ ⟨h1, _⟩; exact absurd h1 hb, by simp⟩, .nil _⟩
  | cmp o x y =>
    simp only at e
    split at e
    · rename_i hb
      split at e
      · rename_i x' y' ex ey dx dy
        have gx := (ground_val hg ex).1 rfl
        have gy := (ground_val hg ey).1 rfl
        have dx := deref_eq_sub dx
        have dy := deref_eq_sub dy
        subst dx dy
        split at e
        · rename_i ho
          have := hk _ _ _ _ _ _ e
          subst this
          refine ⟨[(emb 1, h')], ⟨by simp [hg], ?_, ?_, by simp⟩, .cons e (.nil _)⟩
          · rintro p hp τ hτ
            simp only [List.mem_singleton] at hp; subst hp
            refine ⟨hτ, hb, ?_, rfl⟩
            rw [sub_eq_of_ground hg gx hτ, sub_eq_of_ground hg gy hτ]; exact ho
          · rintro τ b hτ ⟨_, _, h3⟩
            exact ⟨(emb 1, h'), by simp, hτ, h3.symm⟩
        · rename_i ho
          simp only [Option.some.injEq, Prod.mk.injEq, and_true] at e
          obtain ⟨rfl, rfl⟩ := e
          refine ⟨[], ⟨by simp, by simp, ?_, by simp⟩, .nil _⟩
          rintro τ b hτ ⟨_, h2, _⟩
          rw [sub_eq_of_ground hg gx hτ, sub_eq_of_ground hg gy hτ] at h2
          exact absurd h2 ho
      · simp at e
      · simp at e
    · rename_i hb
      simp only [Option.some.injEq, Prod.mk.injEq, and_true] at e
      obtain ⟨rfl, rfl⟩ := e
      exact ⟨[], ⟨by simp, by simp, by rintro τ b _ ⟨h1, _⟩; exact absurd h1 hb, by simp⟩, .nil _⟩
  | sub q =>
    obtain ⟨c, as, rfl⟩ := hz q rfl
    simp only at e
    cases hd : derefF h f (.app (.con c :: as)) with
    | none => simp [hd] at e
    | some q' =>
      have hq' := deref_eq_sub hd
      have hq'' : q' = .app (.con c :: as.map (sub (res h))) := by rw [hq']; simp
      rw [hq''] at hd
      simp only [hd] at e
      have key : ∀ (xs : List (Tm × β)), xs.Nodup → (∀ x ∈ xs, Ground x.1) → ∀ s,
          forEach xs (fun x => unifyF f x.1 (.app (.con c :: as)) (k x.2)) h s = some (h', s', .done) →
          ∃ L, (∀ p ∈ L, Good p.2) ∧
            (∀ p ∈ L, ∀ τ, Respects p.2 τ → Respects h τ ∧ ((Tm.app (.con c :: as)).sub τ, p.1) ∈ xs) ∧
            (∀ τ b, Respects h τ → ((Tm.app (.con c :: as)).sub τ, b) ∈ xs → ∃ p ∈ L, Respects p.2 τ ∧ p.1 = b) ∧
            (L.Pairwise fun p p' => p.1 = p'.1 → ∀ τ τ', (∀ n ∈ vars (.app (.con c :: as)), τ n = τ' n) →
              Respects p.2 τ → Respects p'.2 τ' → False) ∧
            RunCalls k L s s' := by
        intro xs
        induction xs with
        | nil =>
          intro _ _ s e
          simp only [forEach, Option.some.injEq, Prod.mk.injEq, and_true] at e
          exact ⟨[], by simp, by simp, by simp, by simp, e.2 ▸ .nil _⟩
        | cons x xs ihx =>
          intro hnd hgr s e
          obtain ⟨h1, s1, e1, e2⟩ := forEach_cons_done e
          rw [List.nodup_cons] at hnd
          obtain ⟨rfl, hu⟩ := unify_done hg (hk _) e1
          obtain ⟨L2, b1, b2, b3, b4, b5⟩ := ihx hnd.2 (fun y hy => hgr y (by simp [hy])) s1 e2
          have hxg : Ground x.1 := hgr x (by simp)
          rcases hu with ⟨hf, rfl⟩ | ⟨h2, g1, g2, e3⟩
          · refine ⟨L2, b1, ?_, ?_, b4, b5⟩
            · intro p hp τ hτ
              exact ⟨(b2 p hp τ hτ).1, List.mem_cons_of_mem _ (b2 p hp τ hτ).2⟩
            · intro τ b hτ hm
              rcases List.mem_cons.1 hm with hm | hm
              · have := hf τ hτ
                rw [Chart.sub_ground hxg, ← hm] at this
                exact absurd rfl this
              · exact b3 τ b hτ hm
          · have hx2 : ∀ τ, Respects h2 τ → (Tm.app (.con c :: as)).sub τ = x.1 := fun τ hτ => by
              rw [← ((g2 τ).1 hτ).2, Chart.sub_ground hxg]
            refine ⟨(x.2, h2) :: L2, ?_, ?_, ?_, ?_, .cons e3 b5⟩
            · intro p hp
              rcases List.mem_cons.1 hp with rfl | hp
              · exact g1
              · exact b1 p hp
            · intro p hp τ hτ
              rcases List.mem_cons.1 hp with rfl | hp
              · refine ⟨((g2 τ).1 hτ).1, ?_⟩
                simp only at hτ ⊢
                rw [hx2 τ hτ]; exact List.mem_cons_self
              · exact ⟨(b2 p hp τ hτ).1, List.mem_cons_of_mem _ (b2 p hp τ hτ).2⟩
            · intro τ b hτ hm
              rcases List.mem_cons.1 hm with hm | hm
              · refine ⟨(x.2, h2), List.mem_cons_self, (g2 τ).2 ⟨hτ, ?_⟩, ?_⟩
                · rw [Chart.sub_ground hxg, ← hm]
                · rw [← hm]
              · obtain ⟨p, hp, h3⟩ := b3 τ b hτ hm
                exact ⟨p, List.mem_cons_of_mem _ hp, h3⟩
            · refine List.pairwise_cons.2 ⟨?_, b4⟩
              intro p hp hpe τ τ' hz hτ hτ'
              simp only at hpe hτ
              have a1 := hx2 τ hτ
              have a2 := (b2 p hp τ' hτ').2
              rw [← sub_congr hz, a1, ← hpe] at a2
              exact hnd.1 a2
      obtain ⟨L, b1, b2, b3, b4, b5⟩ := key _ (hs.nodup.filter _) (fun x hx => hs.ground x ((offered_mem (as := as)).1 hx).1) s e
      refine ⟨L, ⟨b1, fun p hp τ hτ => ⟨(b2 p hp τ hτ).1, ((offered_mem (as := as)).1 (b2 p hp τ hτ).2).1⟩, ?_, b4⟩, b5⟩
      intro τ b hτ hm
      exact b3 τ b hτ ((offered_mem (as := as)).2 ⟨hm, by simp [hfn]⟩)

theorem joinZ_spec [One K] {f : Nat} {emb : K → β} {k : List β → Body S} (hk : ∀ P, Restores (k P)) :
    ∀ (zs : List (Src β × BLit K)), (∀ p ∈ zs, p.1.Ok) → (∀ p ∈ zs, FnOk p.2) → ∀ acc h s h' s', Good h →
      joinZ f emb zs acc k h s = some (h', s', .done) →
      ∃ L, Yields emb h zs L ∧ RunCalls (fun vs => k (acc ++ vs)) L s s' := by
  intro zs
  induction zs with
  | nil =>
    intro _ _ acc h s h' s' hg e
    simp only [joinZ] at e
    have := hk _ _ _ _ _ _ e
    subst this
    refine ⟨[([], h')], ⟨by simp [hg], ?_, ?_, by simp⟩, .cons (by simpa using e) (.nil _)⟩
    · rintro p hp τ hτ
      simp only [List.mem_singleton] at hp; subst hp
      exact ⟨hτ, .nil⟩
    · intro τ vs hτ hs
      cases hs
      exact ⟨([], h'), by simp, hτ, rfl⟩
  | cons z zs ih =>
    intro hok hfn acc h s h' s' hg e
    have ih := ih (fun p hp => hok p (by simp [hp])) (fun p hp => hfn p (by simp [hp]))
    simp only [joinZ] at e
    obtain ⟨L1, hL1, hr1⟩ := lookup_spec (hok z (by simp)) (hfn z (by simp)) (fun b => joinZ_restores hk _ _) hg e
    clear e
    obtain ⟨src, z⟩ := z
    have key : ∀ (L1 : List (β × Heap)) s, (∀ p ∈ L1, Good p.2) →
        (∀ p ∈ L1, ∀ τ, Respects p.2 τ → Respects h τ ∧ Sat1 emb τ (src, z) p.1) →
        (L1.Pairwise fun p p' => p.1 = p'.1 → ∀ τ τ', (∀ n ∈ litVars z, τ n = τ' n) →
          Respects p.2 τ → Respects p'.2 τ' → False) →
        RunCalls (fun b => joinZ f emb zs (acc ++ [b]) k) L1 s s' →
        ∃ L, (∀ p ∈ L, Good p.2) ∧
          (∀ p ∈ L, ∃ q ∈ L1, ∃ vs, p.1 = q.1 :: vs ∧ ∀ τ, Respects p.2 τ → Respects q.2 τ ∧ List.Forall₂ (Sat1 emb τ) zs vs) ∧
          (∀ q ∈ L1, ∀ τ vs, Respects q.2 τ → List.Forall₂ (Sat1 emb τ) zs vs → ∃ p ∈ L, Respects p.2 τ ∧ p.1 = q.1 :: vs) ∧
          (L.Pairwise fun p p' => p.1 = p'.1 → ∀ τ τ', (∀ x ∈ (src, z) :: zs, ∀ n ∈ litVars x.2, τ n = τ' n) →
            Respects p.2 τ → Respects p'.2 τ' → False) ∧
          RunCalls (fun vs => k (acc ++ vs)) L s s' := by
      intro L1
      induction L1 with
      | nil =>
        intro s _ _ _ hr
        cases hr
        exact ⟨[], by simp, by simp, by simp, by simp, .nil _⟩
      | cons q L1 ihL =>
        intro s hgd hsd hpw hr
        cases hr with
        | @cons b hq _ _ s1 _ e1 hr2 =>
        rw [List.pairwise_cons] at hpw
        obtain ⟨L, a1, a2, a3, a4, a5⟩ := ihL s1 (fun p hp => hgd p (by simp [hp])) (fun p hp => hsd p (by simp [hp])) hpw.2 hr2
        obtain ⟨M, hM, hrM⟩ := ih _ _ _ _ _ (hgd _ List.mem_cons_self) e1
        have hrM' : RunCalls (fun vs => k (acc ++ vs)) (M.map fun p => (b :: p.1, p.2)) s s1 :=
          Solver.RunCalls.map (k := fun vs => k (acc ++ vs)) (g := fun l => b :: l) (by simpa using hrM)
        refine ⟨M.map (fun p => (b :: p.1, p.2)) ++ L, ?_, ?_, ?_, ?_, hrM'.append a5⟩
        · intro p hp
          rcases List.mem_append.1 hp with hp | hp
          · obtain ⟨p0, hp0, rfl⟩ := List.mem_map.1 hp
            exact hM.good p0 hp0
          · exact a1 p hp
        · intro p hp
          rcases List.mem_append.1 hp with hp | hp
          · obtain ⟨p0, hp0, rfl⟩ := List.mem_map.1 hp
            exact ⟨(b, hq), by simp, p0.1, rfl, fun τ hτ => hM.sound p0 hp0 τ hτ⟩
          · obtain ⟨q, hq, h2⟩ := a2 p hp
            exact ⟨q, by simp [hq], h2⟩
        · intro q' hq' τ vs hτ hs
          rcases List.mem_cons.1 hq' with rfl | hq'
          · obtain ⟨p, hp, h3, rfl⟩ := hM.complete τ _ hτ hs
            exact ⟨(b :: p.1, p.2), List.mem_append_left _ (List.mem_map.2 ⟨p, hp, rfl⟩), h3, rfl⟩
          · obtain ⟨p, hp, h3⟩ := a3 q' hq' τ vs hτ hs
            exact ⟨p, List.mem_append_right _ hp, h3⟩
        · rw [List.pairwise_append]
          refine ⟨?_, a4, ?_⟩
          · rw [List.pairwise_map]
            refine hM.disjoint.imp fun hd he τ τ' hz => hd ?_ τ τ' fun x hx => hz x (by simp [hx])
            simpa using he
          · intro p hp p' hp' hpe τ τ' hz hτ hτ'
            obtain ⟨p0, hp0, rfl⟩ := List.mem_map.1 hp
            obtain ⟨q', hq', vs, h3, h4⟩ := a2 p' hp'
            simp only at hpe hτ
            rw [h3] at hpe
            have := hpw.1 q' hq' (by simpa using (List.cons.inj hpe).1) τ τ' (fun n hn => hz (src, z) (by simp) n hn)
              (hM.sound p0 hp0 τ hτ).1 (h4 τ' hτ').1
            exact this
    obtain ⟨L, a1, a2, a3, a4, a5⟩ := key L1 s hL1.good hL1.sound hL1.disjoint hr1
    refine ⟨L, ⟨a1, ?_, ?_, a4⟩, a5⟩
    · intro p hp τ hτ
      obtain ⟨q, hq, vs, h3, h4⟩ := a2 p hp
      obtain ⟨h5, h6⟩ := hL1.sound q hq τ (h4 τ hτ).1
      rw [h3]
      exact ⟨h5, .cons h6 (h4 τ hτ).2⟩
    · intro τ vs hτ hs
      cases hs with
      | @cons _ b _ vs h1 h2 =>
        obtain ⟨q, hq, h5, h6⟩ := hL1.complete τ b hτ h1
        obtain ⟨p, hp, h3, h4⟩ := a3 q hq τ vs h5 h2
        exact ⟨p, hp, h3, by rw [h4, h6]⟩

/-! ### Nested lookups -/

theorem Yields1.list [One K] {emb : K → β} {h : Heap} {z : Src β × BLit K} {L : List (β × Heap)} (hL : Yields1 emb h z L) :
    Yields emb h [z] (L.map fun p => ([p.1], p.2)) := by
  refine ⟨?_, ?_, ?_, ?_⟩
  · intro p hp
    obtain ⟨p0, hp0, rfl⟩ := List.mem_map.1 hp
    exact hL.good p0 hp0
  · intro p hp τ hτ
    obtain ⟨p0, hp0, rfl⟩ := List.mem_map.1 hp
    obtain ⟨h1, h2⟩ := hL.sound p0 hp0 τ hτ
    exact ⟨h1, .cons h2 .nil⟩
  · intro τ vs hτ hs
    cases hs with
    | cons h1 h2 =>
      cases h2
      obtain ⟨p, hp, h3, rfl⟩ := hL.complete τ _ hτ h1
      exact ⟨([p.1], p.2), List.mem_map.2 ⟨p, hp, rfl⟩, h3, rfl⟩
  · rw [List.pairwise_map]
    exact hL.disjoint.imp fun hd he τ τ' hz => hd (by simpa using he) τ τ' fun n hn => hz z (by simp) n hn

/-- the yields of a conjunction in two parts -/
theorem yields_bind [One K] {emb : K → β} {h : Heap} {zs zs' : List (Src β × BLit K)} {k : List β → List β → Body S}
    {inner : List β → Body S}
    (hin : ∀ a h1 s s1, Good h1 → inner a h1 s = some (h1, s1, .done) →
      ∃ M, Yields emb h1 zs' M ∧ RunCalls (k a) M s s1) :
    ∀ (L1 : List (List β × Heap)) (s s' : S), Yields emb h zs L1 → RunCalls inner L1 s s' →
      ∃ L, Yields emb h (zs ++ zs') L ∧ RunCalls (fun vs => k (vs.take zs.length) (vs.drop zs.length)) L s s' := by
  intro L1 s s' hL1 hr1
  have key : ∀ (L1 : List (List β × Heap)) s, (∀ p ∈ L1, Good p.2) → (∀ p ∈ L1, p.1.length = zs.length) →
      (L1.Pairwise fun p p' => p.1 = p'.1 → ∀ τ τ', (∀ z ∈ zs, ∀ n ∈ litVars z.2, τ n = τ' n) →
        Respects p.2 τ → Respects p'.2 τ' → False) →
      RunCalls inner L1 s s' →
      ∃ L, (∀ p ∈ L, Good p.2) ∧
        (∀ p ∈ L, ∃ q ∈ L1, ∃ vs, p.1 = q.1 ++ vs ∧ ∀ τ, Respects p.2 τ → Respects q.2 τ ∧ List.Forall₂ (Sat1 emb τ) zs' vs) ∧
        (∀ q ∈ L1, ∀ τ vs, Respects q.2 τ → List.Forall₂ (Sat1 emb τ) zs' vs → ∃ p ∈ L, Respects p.2 τ ∧ p.1 = q.1 ++ vs) ∧
        (L.Pairwise fun p p' => p.1 = p'.1 → ∀ τ τ', (∀ x ∈ zs ++ zs', ∀ n ∈ litVars x.2, τ n = τ' n) →
          Respects p.2 τ → Respects p'.2 τ' → False) ∧
        RunCalls (fun vs => k (vs.take zs.length) (vs.drop zs.length)) L s s' := by
    intro L1
    induction L1 with
    | nil =>
      intro s _ _ _ hr
      cases hr
      exact ⟨[], by simp, by simp, by simp, by simp, .nil _⟩
    | cons q L1 ihL =>
      intro s hgd hlen hpw hr
      cases hr with
      | @cons b hq _ _ s1 _ e1 hr2 =>
      rw [List.pairwise_cons] at hpw
      obtain ⟨L, a1, a2, a3, a4, a5⟩ := ihL s1 (fun p hp => hgd p (by simp [hp])) (fun p hp => hlen p (by simp [hp])) hpw.2 hr2
      obtain ⟨M, hM, hrM⟩ := hin _ _ _ _ (hgd _ List.mem_cons_self) e1
      have hbl : b.length = zs.length := hlen _ List.mem_cons_self
      have hrM' : RunCalls (fun vs => k (vs.take zs.length) (vs.drop zs.length)) (M.map fun p => (b ++ p.1, p.2)) s s1 := by
        refine Solver.RunCalls.map (k := fun vs => k (vs.take zs.length) (vs.drop zs.length)) (g := fun l => b ++ l) ?_
        simpa [← hbl] using hrM
      refine ⟨M.map (fun p => (b ++ p.1, p.2)) ++ L, ?_, ?_, ?_, ?_, hrM'.append a5⟩
      · intro p hp
        rcases List.mem_append.1 hp with hp | hp
        · obtain ⟨p0, hp0, rfl⟩ := List.mem_map.1 hp
          exact hM.good p0 hp0
        · exact a1 p hp
      · intro p hp
        rcases List.mem_append.1 hp with hp | hp
        · obtain ⟨p0, hp0, rfl⟩ := List.mem_map.1 hp
          exact ⟨(b, hq), by simp, p0.1, rfl, fun τ hτ => hM.sound p0 hp0 τ hτ⟩
        · obtain ⟨q, hq, h2⟩ := a2 p hp
          exact ⟨q, by simp [hq], h2⟩
      · intro q' hq' τ vs hτ hs
        rcases List.mem_cons.1 hq' with rfl | hq'
        · obtain ⟨p, hp, h3, rfl⟩ := hM.complete τ _ hτ hs
          exact ⟨(b ++ p.1, p.2), List.mem_append_left _ (List.mem_map.2 ⟨p, hp, rfl⟩), h3, rfl⟩
        · obtain ⟨p, hp, h3⟩ := a3 q' hq' τ vs hτ hs
          exact ⟨p, List.mem_append_right _ hp, h3⟩
      · rw [List.pairwise_append]
        refine ⟨?_, a4, ?_⟩
        · rw [List.pairwise_map]
          refine hM.disjoint.imp fun hd he τ τ' hz => hd ?_ τ τ' fun x hx => hz x (by simp [hx])
          simpa using he
        · intro p hp p' hp' hpe τ τ' hz hτ hτ'
          obtain ⟨p0, hp0, rfl⟩ := List.mem_map.1 hp
          obtain ⟨q', hq', vs, h3, h4⟩ := a2 p' hp'
          simp only at hpe hτ
          rw [h3] at hpe
          have hl := hlen q' (by simp [hq'])
          have hbq : b = q'.1 := (List.append_inj hpe (by rw [hbl, hl])).1
          exact hpw.1 q' hq' hbq τ τ' (fun z hz' n hn => hz z (by simp [hz']) n hn) (hM.sound p0 hp0 τ hτ).1 (h4 τ' hτ').1
  have hlen : ∀ p ∈ L1, p.1.length = zs.length := fun p hp =>
    ((hL1.sound p hp _ (hL1.good p hp).respects_res).2.length_eq).symm
  obtain ⟨L, a1, a2, a3, a4, a5⟩ := key L1 s hL1.good hlen hL1.disjoint hr1
  refine ⟨L, ⟨a1, ?_, ?_, a4⟩, a5⟩
  · intro p hp τ hτ
    obtain ⟨q, hq, vs, h3, h4⟩ := a2 p hp
    obtain ⟨h5, h6⟩ := hL1.sound q hq τ (h4 τ hτ).1
    rw [h3]
    exact ⟨h5, List.rel_append h6 (h4 τ hτ).2⟩
  · intro τ vs hτ hs
    obtain ⟨us, ws, h1, h2, rfl⟩ : ∃ us ws, List.Forall₂ (Sat1 emb τ) zs us ∧ List.Forall₂ (Sat1 emb τ) zs' ws ∧ vs = us ++ ws := by
      refine ⟨vs.take zs.length, vs.drop zs.length, ?_, ?_, (List.take_append_drop _ _).symm⟩
      · simpa using List.forall₂_take zs.length hs
      · simpa using List.forall₂_drop zs.length hs
    obtain ⟨q, hq, h5, rfl⟩ := hL1.complete τ us hτ h1
    exact a3 q hq τ ws h5 h2

/-- what `getItem` hands on for the results `vs` -/
def pad [One K] (emb : K → β) (body : List (BLit K)) (vs : List β) : List β :=
  match body with
  | [] => [emb 1]
  | _ => vs

theorem getItem_spec [One K] {f : Nat} {emb : K → β} {src : Src β} (hs : src.Ok) {body : List (BLit K)}
    (hfn : ∀ z ∈ body, FnOk z) {k : List β → Body S} (hk : ∀ P, Restores (k P)) {h : Heap} (hg : Good h) {s h' s'}
    (e : getItem f emb src body k h s = some (h', s', .done)) :
    ∃ L, Yields emb h (body.map fun z => (src, z)) L ∧ RunCalls (fun vs => k (pad emb body vs)) L s s' := by
  cases body with
  | nil =>
    simp only [getItem] at e
    have := hk _ _ _ _ _ _ e
    subst this
    refine ⟨[([], h')], ⟨by simp [hg], ?_, ?_, by simp⟩, .cons (by simpa [pad] using e) (.nil _)⟩
    · rintro p hp τ hτ
      simp only [List.mem_singleton] at hp; subst hp
      exact ⟨hτ, .nil⟩
    · intro τ vs hτ hs
      cases hs
      exact ⟨([], h'), by simp, hτ, rfl⟩
  | cons z body =>
    simp only [getItem] at e
    obtain ⟨L, hL, hr⟩ := joinZ_spec hk ((z :: body).map fun z => (src, z)) (by simp [hs]) (by
      intro p hp
      obtain ⟨z0, hz0, rfl⟩ := List.mem_map.1 hp
      exact hfn z0 hz0) [] h s h' s' hg e
    exact ⟨L, hL, by simpa [pad] using hr⟩

/-! ### The enumeration ends -/

/-- from every state, `k` ends normally with one result for all large enough fuel, restoring the store -/
def Ends (k : Nat → Body S) (h : Heap) : Prop := ∃ N, ∀ s, ∃ s', ∀ f ≥ N, k f h s = some (h, s', .done)

/-- the variables in `B` are bound to ground terms -/
def GrdOn (h : Heap) (B : Finset Nat) : Prop := ∀ n ∈ B, Ground (res h n)

theorem GrdOn.sub {h : Heap} {B : Finset Nat} (hB : GrdOn h B) {t : Tm} (ht : vars t ⊆ B) : Ground (t.sub (res h)) :=
  Solver.ground_sub fun n hn => hB n (ht hn)

theorem GrdOn.mono {h h1 : Heap} (hg : Good h) (hg1 : Good h1) {B : Finset Nat} (hB : GrdOn h B)
    (hr : ∀ τ, Respects h1 τ → Respects h τ) : GrdOn h1 B := by
  intro n hn
  have := sub_eq_of_ground hg (x := .var n) (by simpa using hB n hn) (hr _ hg1.respects_res)
  simp only [sub_var] at this
  rw [this]; exact hB n hn

theorem unify_ends {k : Nat → Body S} (hk : ∀ f, Restores (k f)) {h : Heap} (hg : Good h) {x y : Tm}
    (hend : ∀ h1, Good h1 → (∀ τ, Respects h1 τ ↔ Respects h τ ∧ x.sub τ = y.sub τ) → Ends k h1) :
    Ends (fun f => unifyF f x y (k f)) h := by
  obtain ⟨r, hs, N, hN⟩ := unify_result hg x y
  cases hs with
  | fail hf => exact ⟨N, fun s => ⟨s, fun f hf => by simp only; rw [hN f hf]; rfl⟩⟩
  | ok bs g1 g2 _ _ _ =>
    obtain ⟨M, hM⟩ := hend _ g1 g2
    refine ⟨max N M, fun s => ?_⟩
    obtain ⟨s', e⟩ := hM s
    refine ⟨s', fun f hf => ?_⟩
    have e := e f (le_of_max_le_right hf)
    have e2 : unifyF f x y (k f) h s = some (unbindAll bs (bindAll h bs), s', .done) := by
      rw [hN f (le_of_max_le_left hf)]
      simp only [run, e]
    have := C03_no_trace f x y (hk f) _ _ _ _ _ e2
    simp only; rw [e2, this]

theorem forEach_ends {α : Type} {k : Nat → α → Body S} {h : Heap} : ∀ {l : List α}, (∀ a ∈ l, Ends (fun f => k f a) h) →
    Ends (fun f => forEach l (k f)) h := by
  intro l
  induction l with
  | nil => intro _; exact ⟨0, fun s => ⟨s, fun f _ => rfl⟩⟩
  | cons a l ih =>
    intro hl
    obtain ⟨N, hN⟩ := hl a (by simp)
    obtain ⟨M, hM⟩ := ih fun b hb => hl b (by simp [hb])
    refine ⟨max N M, fun s => ?_⟩
    obtain ⟨s1, e1⟩ := hN s
    obtain ⟨s2, e2⟩ := hM s1
    refine ⟨s2, fun f hf => ?_⟩
    have e1 := e1 f (le_of_max_le_left hf)
    simp only [forEach]
    simp only at e1
    rw [e1]; exact e2 f (le_of_max_le_right hf)

/-- every comparison is reached with bound arguments, starting from the bound variables `B` -/
def Moded : Finset Nat → List (BLit K) → Prop
  | _, [] => True
  | B, .val _ :: zs => Moded B zs
  | B, .sub t :: zs => Moded (B ∪ vars t) zs
  | B, .eq x y :: zs => Moded (if vars x ⊆ B ∨ vars y ⊆ B then B ∪ vars x ∪ vars y else B) zs
  | B, .cmp _ x y :: zs => vars x ⊆ B ∧ vars y ⊆ B ∧ Moded B zs

/-- the variables bound after a body -/
def boundBy : Finset Nat → List (BLit K) → Finset Nat
  | B, [] => B
  | B, .val _ :: zs => boundBy B zs
  | B, .sub t :: zs => boundBy (B ∪ vars t) zs
  | B, .eq x y :: zs => boundBy (if vars x ⊆ B ∨ vars y ⊆ B then B ∪ vars x ∪ vars y else B) zs
  | B, .cmp _ _ _ :: zs => boundBy B zs

theorem joinZ_ends [One K] {emb : K → β} {k : Nat → List β → Body S} (hk : ∀ f P, Restores (k f P)) :
    ∀ (zs : List (Src β × BLit K)), (∀ p ∈ zs, p.1.Ok) → (∀ p ∈ zs, FnOk p.2) → ∀ acc h B, Good h → GrdOn h B →
      Moded B (zs.map Prod.snd) →
      (∀ vs h1, Good h1 → (∀ τ, Respects h1 τ → Respects h τ) → GrdOn h1 (boundBy B (zs.map Prod.snd)) → Ends (fun f => k f vs) h1) →
      Ends (fun f => joinZ f emb zs acc (k f)) h := by
  intro zs
  induction zs with
  | nil =>
    intro _ _ acc h B hg hB _ hend
    exact hend acc h hg (fun _ h => h) hB
  | cons z zs ih =>
    intro hok hfn acc h B hg hB hm hend
    have ih := ih (fun p hp => hok p (by simp [hp])) (fun p hp => hfn p (by simp [hp]))
    have h0 := hok z (by simp)
    have hf0 := hfn z (by simp)
    obtain ⟨src, z⟩ := z
    have hdone : Ends (fun _ h (s : S) => some (h, s, .done)) h := ⟨0, fun s => ⟨s, fun f _ => rfl⟩⟩
    cases z with
    | val c =>
      simp only [joinZ]
      unfold lookupVals
      by_cases hb : src.bi = true
      · simp only [hb, if_true]
        exact ih _ h B hg hB hm hend
      · simp only [hb]
        exact hdone
    | eq x y =>
      simp only [joinZ]
      unfold lookupVals
      by_cases hb : src.bi = true
      · simp only [hb, if_true]
        refine unify_ends (k := fun f => joinZ f emb zs (acc ++ [emb 1]) (k f)) (fun f => joinZ_restores (hk f) _ _) hg ?_
        intro h1 g1 hr1
        have hB1 := hB.mono hg g1 fun τ hτ => ((hr1 τ).1 hτ).1
        refine ih _ h1 _ g1 ?_ hm fun vs h2 g2 hr2 hB2 => hend vs h2 g2 (fun τ hτ => ((hr1 τ).1 (hr2 τ hτ)).1) hB2
        have hxy := ((hr1 _).1 g1.respects_res).2
        split
        · rename_i hc
          have hgx : Ground (x.sub (res h1)) := by
            rcases hc with hc | hc
            · exact hB1.sub hc
            · rw [hxy]; exact hB1.sub hc
          intro n hn
          simp only [Finset.mem_union] at hn
          rcases hn with (hn | hn) | hn
          · exact hB1 n hn
          · exact Solver.ground_of_mem hgx hn
          · exact Solver.ground_of_mem (hxy ▸ hgx) hn
        · exact hB1
      · simp only [hb]
        exact hdone
    | cmp o x y =>
      simp only [joinZ]
      unfold lookupVals
      by_cases hb : src.bi = true
      · simp only [hb, if_true]
        obtain ⟨hx, hy, hm⟩ := hm
        obtain ⟨fx, ex⟩ := hg.deref x
        obtain ⟨fy, ey⟩ := hg.deref y
        obtain ⟨Nx, hNx⟩ := groundF_evt _ _ _ ex
        obtain ⟨Ny, hNy⟩ := groundF_evt _ _ _ ey
        have gx : vars (x.sub (res h)) = ∅ := hB.sub hx
        have gy : vars (y.sub (res h)) = ∅ := hB.sub hy
        obtain ⟨N, hN⟩ := ih (acc ++ [emb 1]) h B hg hB hm hend
        refine ⟨fx + fy + Nx + Ny + N, fun s => ?_⟩
        obtain ⟨s', e⟩ := hN s
        by_cases ho : o (x.sub (res h)) (y.sub (res h)) = true
        · refine ⟨s', fun f hf => ?_⟩
          simp only
          rw [hNx f (by omega), hNy f (by omega), deref_mono ex (by omega : fx ≤ f), deref_mono ey (by omega : fy ≤ f)]
          simp only [gx, gy, decide_true, ho, if_true]
          exact e f (by omega)
        · refine ⟨s, fun f hf => ?_⟩
          simp only
          rw [hNx f (by omega), hNy f (by omega), deref_mono ex (by omega : fx ≤ f), deref_mono ey (by omega : fy ≤ f)]
          simp only [gx, gy, decide_true, ho]
          rfl
      · simp only [hb]
        exact hdone
    | sub q =>
      obtain ⟨c, as, rfl⟩ := hf0 q rfl
      simp only [joinZ]
      unfold lookupVals
      simp only
      obtain ⟨fq, eq⟩ := hg.deref (.app (.con c :: as))
      have hq : (Tm.app (.con c :: as)).sub (res h) = .app (.con c :: as.map (sub (res h))) := by simp
      rw [hq] at eq
      have : Ends (fun f => forEach (offered src.ent (.app (.con c :: as.map (sub (res h))))) fun e =>
          unifyF f e.1 (.app (.con c :: as)) (joinZ f emb zs (acc ++ [e.2]) (k f))) h := by
        refine forEach_ends fun e he => ?_
        have hge : Ground e.1 := h0.ground e (offered_mem.1 he).1
        refine unify_ends (k := fun f => joinZ f emb zs (acc ++ [e.2]) (k f)) (fun f => joinZ_restores (hk f) _ _) hg ?_
        intro h1 g1 hr1
        have hB1 := hB.mono hg g1 fun τ hτ => ((hr1 τ).1 hτ).1
        refine ih _ h1 _ g1 ?_ hm fun vs h2 g2 hr2 hB2 => hend vs h2 g2 (fun τ hτ => ((hr1 τ).1 (hr2 τ hτ)).1) hB2
        have hxy := ((hr1 _).1 g1.respects_res).2
        rw [Chart.sub_ground hge] at hxy
        intro n hn
        rcases Finset.mem_union.1 hn with hn | hn
        · exact hB1 n hn
        · exact Solver.ground_of_mem (hxy ▸ hge) hn
      obtain ⟨N, hN⟩ := this
      refine ⟨fq + N, fun s => ?_⟩
      obtain ⟨s', e⟩ := hN s
      refine ⟨s', fun f hf => ?_⟩
      simp only
      rw [deref_mono eq (by omega : fq ≤ f)]
      exact e f (by omega)

theorem Moded.mono {l : List (BLit K)} : ∀ {B C : Finset Nat}, B ⊆ C → Moded B l → Moded C l := by
  induction l with
  | nil => intro B C _ _; trivial
  | cons z l ih =>
    intro B C hBC h
    cases z with
    | val k => exact ih (B := B) hBC h
    | sub t => exact ih (B := B ∪ vars t) (Finset.union_subset_union_left hBC) h
    | eq x y =>
      refine ih (B := if vars x ⊆ B ∨ vars y ⊆ B then B ∪ vars x ∪ vars y else B) ?_ h
      split
      · rename_i hc
        rw [if_pos (hc.imp (fun h => h.trans hBC) fun h => h.trans hBC)]
        exact Finset.union_subset_union_left (Finset.union_subset_union_left hBC)
      · split
        · exact hBC.trans (by rw [Finset.union_assoc]; exact Finset.subset_union_left)
        · exact hBC
    | cmp o x y => exact ⟨h.1.trans hBC, h.2.1.trans hBC, ih hBC h.2.2⟩

theorem boundBy_mono {l : List (BLit K)} : ∀ {B C : Finset Nat}, B ⊆ C → boundBy B l ⊆ boundBy C l := by
  induction l with
  | nil => intro B C h; exact h
  | cons z l ih =>
    intro B C hBC
    cases z with
    | val k => exact ih (B := B) hBC
    | sub t => exact ih (B := B ∪ vars t) (Finset.union_subset_union_left hBC)
    | eq x y =>
      refine ih (B := if vars x ⊆ B ∨ vars y ⊆ B then B ∪ vars x ∪ vars y else B) ?_
      split
      · rename_i hc
        rw [if_pos (hc.imp (fun h => h.trans hBC) fun h => h.trans hBC)]
        exact Finset.union_subset_union_left (Finset.union_subset_union_left hBC)
      · split
        · exact hBC.trans (by rw [Finset.union_assoc]; exact Finset.subset_union_left)
        · exact hBC
    | cmp o x y => exact ih hBC

theorem boundBy_append {l r : List (BLit K)} : ∀ {B : Finset Nat}, boundBy B (l ++ r) = boundBy (boundBy B l) r := by
  induction l with
  | nil => intro B; rfl
  | cons z l ih => intro B; cases z <;> exact ih

theorem Moded.append {l r : List (BLit K)} : ∀ {B : Finset Nat}, Moded B (l ++ r) ↔ Moded B l ∧ Moded (boundBy B l) r := by
  induction l with
  | nil => intro B; simp [Moded, boundBy]
  | cons z l ih =>
    intro B
    cases z with
    | cmp o x y => simp only [List.cons_append, Moded, boundBy, ih]; tauto
    | val k => exact ih
    | sub t => exact ih
    | eq x y => exact ih

theorem subset_boundBy {l : List (BLit K)} : ∀ {B : Finset Nat}, B ⊆ boundBy B l := by
  induction l with
  | nil => intro B; exact Finset.Subset.refl B
  | cons z l ih =>
    intro B
    cases z with
    | val k => exact ih
    | sub t => exact Finset.subset_union_left.trans (ih (B := B ∪ vars t))
    | eq x y =>
      refine Finset.Subset.trans ?_ (ih (B := if vars x ⊆ B ∨ vars y ⊆ B then B ∪ vars x ∪ vars y else B))
      split
      · rw [Finset.union_assoc]; exact Finset.subset_union_left
      · exact Finset.Subset.refl B
    | cmp o x y => exact ih

/-- an ordinary subgoal may be evaluated before the others -/
theorem Moded.front {l r : List (BLit K)} {t : Tm} {B : Finset Nat} (h : Moded B (l ++ .sub t :: r)) :
    Moded (B ∪ vars t) l ∧ Moded (boundBy (B ∪ vars t) l) r ∧ boundBy B (l ++ .sub t :: r) ⊆ boundBy (boundBy (B ∪ vars t) l) r := by
  obtain ⟨h1, h2⟩ := Moded.append.1 h
  have hsub : boundBy B l ∪ vars t ⊆ boundBy (B ∪ vars t) l :=
    Finset.union_subset (boundBy_mono Finset.subset_union_left) (Finset.subset_union_right.trans subset_boundBy)
  exact ⟨h1.mono Finset.subset_union_left, Moded.mono (B := boundBy B l ∪ vars t) hsub h2, by
    rw [boundBy_append]; exact boundBy_mono (B := boundBy B l ∪ vars t) hsub⟩

theorem getItem_ends [One K] {emb : K → β} {k : Nat → List β → Body S} (hk : ∀ f P, Restores (k f P)) {src : Src β} (hs : src.Ok)
    {body : List (BLit K)} (hfn : ∀ z ∈ body, FnOk z) {h : Heap} {B : Finset Nat} (hg : Good h) (hB : GrdOn h B) (hm : Moded B body)
    (hend : ∀ vs h1, Good h1 → (∀ τ, Respects h1 τ → Respects h τ) → GrdOn h1 (boundBy B body) → Ends (fun f => k f vs) h1) :
    Ends (fun f => getItem f emb src body (k f)) h := by
  cases body with
  | nil => exact hend _ h hg (fun _ h => h) hB
  | cons z b =>
    have hmap : ((z :: b).map fun z => (src, z)).map Prod.snd = z :: b := by simp [List.map_map, Function.comp_def]
    refine joinZ_ends hk ((z :: b).map fun z => (src, z)) ?_ ?_ [] h B hg hB (by rwa [hmap]) (by rwa [hmap])
    · intro p hp; obtain ⟨_, _, rfl⟩ := List.mem_map.1 hp; exact hs
    · intro p hp; obtain ⟨z0, hz0, rfl⟩ := List.mem_map.1 hp; exact hfn z0 hz0

end Query
end Verif
