/-
Property C94: the solver that is chosen for a program does not raise.
-/
import Verif.SolverFor
import Verif.SolverThm

set_option linter.unusedSectionVars false
set_option linter.unusedSimpArgs false

namespace Verif
open Tm Heap

namespace SolverFor
open Solver
variable {K : Type}

/-! ### Specification -/

/-- the body of a rule has only values and items with a constant functor -/
def Items (r : SRule K) : Prop := ∀ z ∈ r.body, (∃ c, z = .val c) ∨ ∃ c as, z = .sub (.app (.con c :: as))

/-- the body of a rule has only values, items with a constant functor and equations -/
def NoCmp (r : SRule K) : Prop := ∀ z ∈ r.body, (∃ c, z = .val c) ∨ (∃ c as, z = .sub (.app (.con c :: as))) ∨ ∃ x y, z = .eq x y

/-- every variable of the head is in an item of the body -/
def HeadInItems (r : SRule K) : Prop := ∀ n ∈ vars r.head, ∃ t, BLit.sub t ∈ r.body ∧ n ∈ vars t

/-! ### Proofs -/

theorem mem_bodyVars {r : SRule K} {n : Nat} : n ∈ bodyVars r ↔ ∃ z ∈ r.body, n ∈ litVars z := by
  unfold bodyVars
  simp only [vars_app, mem_varsL, List.mem_flatMap]
  constructor
  · rintro ⟨t, ⟨z, hz, ht⟩, hn⟩
    refine ⟨z, hz, ?_⟩
    cases z with
    | val k => simp [litTerms] at ht
    | sub t' => simp [litTerms] at ht; subst ht; exact hn
    | eq x y => simp [litTerms] at ht; rcases ht with rfl | rfl <;> simp [litVars, hn]
    | cmp o x y => simp [litTerms] at ht; rcases ht with rfl | rfl <;> simp [litVars, hn]
  · rintro ⟨z, hz, hn⟩
    cases z with
    | val k => simp [litVars] at hn
    | sub t => exact ⟨t, ⟨_, hz, by simp [litTerms]⟩, hn⟩
    | eq x y =>
      rcases Finset.mem_union.1 hn with hn | hn
      · exact ⟨x, ⟨_, hz, by simp [litTerms]⟩, hn⟩
      · exact ⟨y, ⟨_, hz, by simp [litTerms]⟩, hn⟩
    | cmp o x y =>
      rcases Finset.mem_union.1 hn with hn | hn
      · exact ⟨x, ⟨_, hz, by simp [litTerms]⟩, hn⟩
      · exact ⟨y, ⟨_, hz, by simp [litTerms]⟩, hn⟩

theorem rr_iff {rules : List (SRule K)} (hi : ∀ r ∈ rules, Items r) :
    isRangeRestricted rules = true ↔ ∀ r ∈ rules, HeadInItems r := by
  unfold isRangeRestricted
  rw [List.all_eq_true]
  refine forall₂_congr fun r hr => ?_
  rw [decide_eq_true_iff, Finset.sdiff_eq_empty_iff_subset]
  refine forall₂_congr fun n _ => ?_
  rw [mem_bodyVars]
  constructor
  · rintro ⟨z, hz, hn⟩
    rcases hi r hr z hz with ⟨c, rfl⟩ | ⟨c, as, rfl⟩
    · simp [litVars] at hn
    · exact ⟨_, hz, hn⟩
  · rintro ⟨t, ht, hn⟩
    exact ⟨_, ht, hn⟩

theorem noCmp_of {r : SRule K} (hi : Items r) : NoCmp r := fun z hz => (hi z hz).imp id .inl

theorem safe_of {r : SRule K} (hi : Items r) (hh : HeadInItems r) : Safe r := by
  refine ⟨?_, ?_⟩
  · rintro n (hn | ⟨z, hz, hn⟩)
    · obtain ⟨t, ht, hn⟩ := hh n hn
      exact .sub ht hn
    · rcases hi z hz with ⟨c, rfl⟩ | ⟨c, as, rfl⟩
      · simp [litVars] at hn
      · exact .sub hz hn
  · intro t ht
    rcases hi _ ht with ⟨c, e⟩ | ⟨c, as, e⟩
    · cases e
    · cases e; exact ⟨c, as, rfl⟩

theorem unify_sig {S : Type} {f : Nat} {x y : Tm} {h : Heap} (hg : Good h) {body : Body S} {s h' s' sig}
    (e : unifyF f x y body h s = some (h', s', sig)) (hs : sig ≠ .done) :
    ∃ h1 h2, Good h1 ∧ (∀ τ, Respects h1 τ ↔ Respects h τ ∧ x.sub τ = y.sub τ) ∧ body h1 s = some (h2, s', sig) := by
  obtain ⟨r, hr, hrun⟩ := unify_run hg x y
  have e := hrun _ _ _ _ e
  cases hr with
  | fail hf =>
    simp only [run, Option.some.injEq, Prod.mk.injEq] at e
    exact absurd e.2.2.symm hs
  | ok bs g1 g2 g3 g4 g5 =>
    simp only [run] at e
    cases hq : body (bindAll h bs) s with
    | none => simp [hq] at e
    | some q =>
      obtain ⟨h1, s1, sg⟩ := q
      simp only [hq, Option.some.injEq, Prod.mk.injEq] at e
      obtain ⟨_, rfl, rfl⟩ := e
      exact ⟨_, _, g1, g2, hq⟩

theorem forEach_sig {α S : Type} {b : α → Body S} (hb : ∀ a, Restores (b a)) : ∀ {l : List α} {h : Heap} {s : S} {h' s' sig},
    forEach l b h s = some (h', s', sig) → sig ≠ .done → ∃ a ∈ l, ∃ s1 h2, b a h s1 = some (h2, s', sig) := by
  intro l
  induction l with
  | nil =>
    intro h s h' s' sig e hs
    simp only [forEach, Option.some.injEq, Prod.mk.injEq] at e
    exact absurd e.2.2.symm hs
  | cons a l ih =>
    intro h s h' s' sig e hs
    simp only [forEach] at e
    cases hq : b a h s with
    | none => simp [hq] at e
    | some q =>
      obtain ⟨h1, s1, sg⟩ := q
      have := hb _ _ _ _ _ _ hq
      subst this
      simp only [hq] at e
      cases sg with
      | done =>
        obtain ⟨a', ha', s2, h2, e2⟩ := ih e hs
        exact ⟨a', by simp [ha'], s2, h2, e2⟩
      | brk =>
        simp only [Option.some.injEq, Prod.mk.injEq] at e
        obtain ⟨rfl, rfl, rfl⟩ := e
        exact ⟨a, by simp, s, _, hq⟩
      | exc n =>
        simp only [Option.some.injEq, Prod.mk.injEq] at e
        obtain ⟨rfl, rfl, rfl⟩ := e
        exact ⟨a, by simp, s, _, hq⟩

/-- an exception during a join over items and equations is one of the consumer, at a match of the whole body -/
theorem join_sig {S : Type} [One K] {f : Nat} {chart : Dict Tm K} {cand : Tm → List Tm} {k : List K → Body S}
    (hk : ∀ P, Restores (k P)) (hch : ∀ x ∈ Dict.keys chart, Ground x)
    (hc : ∀ c as, ∀ x ∈ cand (.app (.con c :: as)), x ∈ Dict.keys chart) :
    ∀ body : List (BLit K), (∀ z ∈ body, (∃ c, z = .val c) ∨ (∃ c as, z = .sub (.app (.con c :: as))) ∨ ∃ x y, z = .eq x y) →
      ∀ acc h s h' s' sig, Good h → joinF f chart cand body acc k h s = some (h', s', sig) → sig ≠ .done →
      ∃ P h1 s1 h2, Good h1 ∧ (∀ τ, Respects h1 τ → Respects h τ ∧ ∀ z ∈ body, ∃ v, LitSat chart τ z v) ∧
        k P h1 s1 = some (h2, s', sig) := by
  intro body
  induction body with
  | nil =>
    intro _ acc h s h' s' sig hg e _
    exact ⟨acc, h, s, h', hg, fun τ hτ => ⟨hτ, by simp⟩, e⟩
  | cons z body ih =>
    intro hb acc h s h' s' sig hg e hs
    have ih := ih fun z hz => hb z (by simp [hz])
    rcases hb z (by simp) with ⟨c, rfl⟩ | ⟨c, as, rfl⟩ | ⟨x, y, rfl⟩
    · obtain ⟨P, h1, s1, h2, g1, g2, e2⟩ := ih _ _ _ _ _ _ hg e hs
      refine ⟨P, h1, s1, h2, g1, fun τ hτ => ⟨(g2 τ hτ).1, ?_⟩, e2⟩
      intro z hz
      rcases List.mem_cons.1 hz with rfl | hz
      · exact ⟨c, rfl⟩
      · exact (g2 τ hτ).2 z hz
    · simp only [joinF] at e
      split at e
      · simp at e
      · rename_i l hl
        have hl' := deref_eq_sub hl
        simp only [sub_app, List.map_cons, sub_con, Tm.app.injEq] at hl'
        obtain ⟨x, hx, s1, h2, e1⟩ := forEach_sig (fun x => C03_no_trace _ _ _ (by
          intro h s h' s' sig e
          simp only at e
          split at e
          · simp at e
          · split at e
            · simp at e; exact e.1.symm
            · exact joinF_restores hk _ _ _ _ _ _ _ e)) e hs
        rw [hl'] at hx
        have hxk := hc _ _ x hx
        have hxg := hch x hxk
        obtain ⟨h3, h4, g3, g4, e3⟩ := unify_sig hg e1 hs
        have hq : ∀ τ, Respects h3 τ → (Tm.app (.con c :: as)).sub τ = x := fun τ hτ => by
          rw [← ((g4 τ).1 hτ).2, Chart.sub_ground hxg]
        split at e3
        · simp at e3
        · rename_i q' hq'
          rw [deref_eq_sub hq', hq _ g3.respects_res] at e3
          obtain ⟨v, hv⟩ := (Dict.mem_keys_iff_get _ _).1 hxk
          simp only [hv] at e3
          obtain ⟨P, h5, s5, h6, g5, g6, e5⟩ := ih _ _ _ _ _ _ g3 e3 hs
          refine ⟨P, h5, s5, h6, g5, fun τ hτ => ?_, e5⟩
          have := g6 τ hτ
          refine ⟨((g4 τ).1 this.1).1, ?_⟩
          intro z hz
          rcases List.mem_cons.1 hz with rfl | hz
          · exact ⟨v, by simp only [LitSat]; rw [hq τ this.1, hv]⟩
          · exact this.2 z hz
      · rename_i t hne hl
        have hl' := deref_eq_sub hl
        rw [sub_app] at hl'
        exact absurd hl' (hne _)
    · obtain ⟨h3, h4, g3, g4, e3⟩ := unify_sig hg e hs
      obtain ⟨P, h5, s5, h6, g5, g6, e5⟩ := ih _ _ _ _ _ _ g3 e3 hs
      refine ⟨P, h5, s5, h6, g5, fun τ hτ => ?_, e5⟩
      have := g6 τ hτ
      refine ⟨((g4 τ).1 this.1).1, ?_⟩
      intro z hz
      rcases List.mem_cons.1 hz with rfl | hz
      · exact ⟨1, ((g4 τ).1 this.1).2, rfl⟩
      · exact this.2 z hz

/-! ### Every step ends -/

theorem evt_list {α : Type} {p : Nat → α → Prop} : ∀ {l : List α}, (∀ a ∈ l, Evt (p · a)) → Evt fun f => ∀ a ∈ l, p f a := by
  intro l
  induction l with
  | nil => intro _; exact ⟨0, by simp⟩
  | cons a l ih =>
    intro h
    obtain ⟨N, hN⟩ := h a (by simp)
    obtain ⟨M, hM⟩ := ih fun a ha => h a (by simp [ha])
    refine ⟨max N M, fun f hf a' ha' => ?_⟩
    rcases List.mem_cons.1 ha' with rfl | ha'
    · exact hN f (by omega)
    · exact hM f (by omega) a' ha'

theorem deref_evt {h : Heap} (hg : Good h) (t : Tm) : Evt fun f => derefF h f t = some (t.sub (res h)) := by
  obtain ⟨f, e⟩ := hg.deref t
  exact ⟨f, fun g hfg => deref_mono e hfg⟩

theorem ground_evt {h : Heap} (hg : Good h) (t : Tm) : ∃ b, Evt fun f => groundF h f t = some b := by
  obtain ⟨f, e⟩ := hg.deref t
  exact ⟨_, groundF_evt _ _ _ e⟩

/-- with enough fuel, from this store, the body ends, whatever the state -/
def Ends {S : Type} (h : Heap) (b : Nat → Body S) : Prop := Evt fun f => ∀ s, ∃ r, b f h s = some r

theorem unify_ends {S : Type} {x y : Tm} {h : Heap} (hg : Good h) {b : Nat → Body S}
    (hb : ∀ h1, Good h1 → (∀ τ, Respects h1 τ ↔ Respects h τ ∧ x.sub τ = y.sub τ) → Ends h1 b) : Ends h fun f => unifyF f x y (b f) := by
  obtain ⟨r, hs, N, hN⟩ := unify_result hg x y
  cases hs with
  | fail hf => exact ⟨N, fun f hf s => ⟨_, hN f hf _ _ _⟩⟩
  | ok bs g1 g2 g3 g4 g5 =>
    obtain ⟨M, hM⟩ := hb _ g1 g2
    refine ⟨max N M, fun f hf s => ?_⟩
    obtain ⟨⟨h', s', sig⟩, e⟩ := hM f (by omega) s
    exact ⟨(unbindAll bs h', s', sig), by simp only; rw [hN f (by omega)]; simp only [run, e]⟩

theorem forEach_ends {α S : Type} {h : Heap} {b : Nat → α → Body S} (hr : ∀ f a, Restores (b f a)) {l : List α}
    (hb : ∀ a ∈ l, Ends h fun f => b f a) : Ends h fun f => forEach l (b f) := by
  obtain ⟨N, hN⟩ := evt_list (p := fun f a => ∀ s, ∃ r, b f a h s = some r) hb
  refine ⟨N, fun f hf => ?_⟩
  have := hN f hf
  clear hb hN
  induction l with
  | nil => intro s; exact ⟨_, rfl⟩
  | cons a l ih =>
    intro s
    obtain ⟨⟨h', s', sig⟩, e⟩ := this a (by simp) s
    have := hr _ _ _ _ _ _ _ e
    subst this
    simp only [forEach, e]
    cases sig with
    | done => exact ih (fun a ha => this a (by simp [ha])) s'
    | brk => exact ⟨_, rfl⟩
    | exc n => exact ⟨_, rfl⟩

theorem join_ends {S : Type} [One K] {chart : Dict Tm K} {cand : Tm → List Tm} {k : Nat → List K → Body S}
    (hk : ∀ f P, Restores (k f P)) (m : Nat) (he : ∀ P h, P.length = m → Good h → Ends h fun f => k f P) :
    ∀ (body : List (BLit K)) acc h, acc.length + body.length = m → Good h → Ends h fun f => joinF f chart cand body acc (k f) := by
  intro body
  induction body with
  | nil => intro acc h hm hg; exact he acc h (by simpa using hm) hg
  | cons z body ih =>
    intro acc h hm hg
    have ih : ∀ c h, Good h → Ends h fun f => joinF f chart cand body (acc ++ [c]) (k f) := fun c h hg =>
      ih _ _ (by simp at hm ⊢; omega) hg
    cases z with
    | val c => exact ih c h hg
    | eq x y => exact unify_ends hg fun h1 g1 _ => ih 1 h1 g1
    | cmp o x y =>
      obtain ⟨bx, N1, h1⟩ := ground_evt hg x
      obtain ⟨b2, N2, h2⟩ := ground_evt hg y
      obtain ⟨N3, h3⟩ := deref_evt hg x
      obtain ⟨N4, h4⟩ := deref_evt hg y
      obtain ⟨N5, h5⟩ := ih 1 h hg
      refine ⟨max (max N1 N2) (max (max N3 N4) N5), fun f hf s => ?_⟩
      simp only [joinF, h1 f (by omega), h2 f (by omega), h3 f (by omega), h4 f (by omega)]
      cases bx <;> cases b2 <;> simp only
      · exact ⟨_, rfl⟩
      · exact ⟨_, rfl⟩
      · exact ⟨_, rfl⟩
      · split
        · exact h5 f (by omega) s
        · exact ⟨_, rfl⟩
    | sub q =>
      obtain ⟨N1, h1⟩ := deref_evt hg q
      have h2 : ∀ l, Ends h fun f => forEach (cand (.app l)) (fun x => unifyF f x q (fun h s =>
          match derefF h f q with
          | none => none
          | some q' => match Dict.get chart q' with
            | none => some (h, s, keyError)
            | some v => joinF f chart cand body (acc ++ [v]) (k f) h s)) := by
        intro l
        refine forEach_ends (fun f x => C03_no_trace _ _ _ ?_) fun x _ => unify_ends hg
          (b := fun f h s => match derefF h f q with
          | none => none
          | some q' => match Dict.get chart q' with
            | none => some (h, s, keyError)
            | some v => joinF f chart cand body (acc ++ [v]) (k f) h s) fun h1 g1 _ => ?_
        · intro h s h' s' sig e
          simp only at e
          split at e
          · simp at e
          · split at e
            · simp at e; exact e.1.symm
            · exact joinF_restores (hk f) _ _ _ _ _ _ _ e
        · obtain ⟨N3, h3⟩ := deref_evt g1 q
          cases hv : Dict.get chart (q.sub (res h1)) with
          | none => exact ⟨N3, fun f hf s => ⟨_, by simp only [h3 f hf, hv]; rfl⟩⟩
          | some v =>
            obtain ⟨N4, h4⟩ := ih v h1 g1
            refine ⟨max N3 N4, fun f hf s => ?_⟩
            simp only [h3 f (by omega), hv]
            exact h4 f (by omega) s
      cases hq : q.sub (res h) with
      | app l =>
        obtain ⟨N2, h2⟩ := h2 l
        refine ⟨max N1 N2, fun f hf s => ?_⟩
        simp only [joinF, h1 f (by omega), hq]
        exact h2 f (by omega) s
      | var n => exact ⟨N1, fun f hf s => ⟨_, by simp only [joinF, h1 f hf, hq]; rfl⟩⟩
      | con c => exact ⟨N1, fun f hf s => ⟨_, by simp only [joinF, h1 f hf, hq]; rfl⟩⟩

variable [Semiring K]

theorem update_sig {prio} {f : Nat} {item : Tm} {c : K} {h : Heap} (hg : Good h) (hgr : Ground (item.sub (res h))) {s h' s' sig}
    (e : update prio f item c h s = some (h', s', sig)) : sig = .done := by
  unfold update at e
  split at e
  · rename_i t eg ed
    have := (ground_val hg eg).2 hgr
    cases this
  · split at e <;> simp at e <;> exact e.2.2.symm
  · simp at e

theorem initRule_sig {g : Cfg K} {f : Nat} {chart : Dict Tm K} {cand : Tm → List Tm} {r : SRule K} {h' : Heap} {s s' : Chg K} {sig}
    (hch : ∀ x ∈ Dict.keys chart, Ground x) (hc : ∀ c as, ∀ x ∈ cand (.app (.con c :: as)), x ∈ Dict.keys chart) (hi : NoCmp r)
    (hh : Safe r) (e : initRule g f chart cand r noHeap s = some (h', s', sig)) : sig = .done := by
  by_contra hs
  have hrest : ∀ P : List K, Restores (fun h s => match multiple g.inf f h r with
      | none => none
      | some m => update g.prio f r.head (P.foldl (· * ·) 1 * m) h s) := by
    intro P h s h' s' sig e
    simp only at e
    split at e
    · simp at e
    · exact update_restores _ _ _ _ _ e
  obtain ⟨P, h1, s1, h2, g1, g2, e2⟩ := join_sig hrest hch hc r.body hi [] _ _ _ _ _ good_noHeap e hs
  have hsat := (g2 _ g1.respects_res).2
  split at e2
  · simp at e2
  · refine hs (update_sig g1 (ground_sub fun n hn => ?_) e2)
    exact bnd_ground hch hsat (hh.bnd n (.inl hn))

theorem drive_sig {g : Cfg K} {f : Nat} {chart : Dict Tm K} {cand : Tm → List Tm} {a : Tm} {old Δ : K} {h' : Heap} {s s' : Chg K} {sig}
    (hch : ∀ x ∈ Dict.keys chart, Ground x) (hc : ∀ c as, ∀ x ∈ cand (.app (.con c :: as)), x ∈ Dict.keys chart)
    (hi : ∀ r ∈ g.rules, NoCmp r) (hh : ∀ r ∈ g.rules, Safe r)
    (e : drive g f chart cand a old Δ noHeap s = some (h', s', sig)) : sig = .done := by
  by_contra hs
  have hrest : ∀ (d : SRule K × Nat × Tm) (P : List K), Restores (fun h s => match deltaProd f h a d.2.1 old Δ d.1.body P 0 1 with
      | none => none
      | some c => update g.prio f d.1.head c h s) := by
    intro d P h s h' s' sig e
    simp only at e
    split at e
    · simp at e
    · exact update_restores _ _ _ _ _ e
  obtain ⟨d, hd, s1, h1, e1⟩ := forEach_sig (fun d => C03_no_trace _ _ _ (joinF_restores (hrest d) _ _)) e hs
  simp only [drivers, List.mem_flatMap] at hd
  obtain ⟨r, hrm, hd⟩ := hd
  obtain ⟨_, rfl, _⟩ := driver_idx hd
  obtain ⟨h2, h3, g2, _, e2⟩ := unify_sig good_noHeap e1 hs
  obtain ⟨P, h4, s4, h5, g4, g5, e4⟩ := join_sig (hrest d) hch hc d.1.body (hi _ hrm) [] _ _ _ _ _ g2 e2 hs
  have hsat := (g5 _ g4.respects_res).2
  split at e4
  · simp at e4
  · refine hs (update_sig g4 (ground_sub fun n hn => ?_) e4)
    exact bnd_ground hch hsat ((hh _ hrm).bnd n (.inl hn))

theorem update_ends {prio} {item : Tm} {c : K} {h : Heap} (hg : Good h) : Ends h fun f => update prio f item c := by
  obtain ⟨b, N1, h1⟩ := ground_evt hg item
  obtain ⟨N2, h2⟩ := deref_evt hg item
  refine ⟨max N1 N2, fun f hf s => ?_⟩
  simp only [update, h1 f (by omega), h2 f (by omega)]
  cases b
  · exact ⟨_, rfl⟩
  · simp only
    split <;> exact ⟨_, rfl⟩

theorem initRule_ends {g : Cfg K} {chart : Dict Tm K} {cand : Tm → List Tm} {r : SRule K} :
    Ends noHeap fun f => initRule g f chart cand r := by
  refine join_ends (k := fun f P h s => match multiple g.inf f h r with
      | none => none
      | some m => update g.prio f r.head (P.foldl (· * ·) 1 * m) h s) ?_ r.body.length ?_ r.body [] noHeap (by simp) good_noHeap
  · intro f P h s h' s' sig e
    simp only at e
    split at e
    · simp at e
    · exact update_restores _ _ _ _ _ e
  · intro P h _ hg
    obtain ⟨N1, h1⟩ := deref_evt hg (.app (r.body.flatMap litTerms))
    obtain ⟨N2, h2⟩ := deref_evt hg r.head
    obtain ⟨N3, h3⟩ := update_ends (prio := g.prio) (item := r.head) (c := P.foldl (· * ·) 1 *
      (if vars ((Tm.app (r.body.flatMap litTerms)).sub (res h)) \ vars (r.head.sub (res h)) = ∅ then 1 else g.inf)) hg
    refine ⟨max N1 (max N2 N3), fun f hf s => ?_⟩
    simp only [multiple, h1 f (by omega), h2 f (by omega)]
    exact h3 f (by omega) s

theorem deltaProd_ends {h : Heap} (hg : Good h) {a : Tm} {i : Nat} {old Δ : K} : ∀ (zs : List (BLit K)) (ps : List K) j c, ps.length = zs.length →
    ∃ c', Evt fun f => deltaProd f h a i old Δ zs ps j c = some c' := by
  intro zs
  induction zs with
  | nil => intro ps j c _; exact ⟨c, 0, fun f _ => by simp [deltaProd]⟩
  | cons z zs ih =>
    intro ps j c hl
    cases ps with
    | nil => simp at hl
    | cons p ps =>
      have hl : ps.length = zs.length := by simpa using hl
      have hb : ∃ b, Evt fun f => litEq h f a z = some b := by
        cases z with
        | sub t => exact ⟨_, hg.eqF t a⟩
        | val _ => exact ⟨false, 0, fun _ _ => rfl⟩
        | eq _ _ => exact ⟨false, 0, fun _ _ => rfl⟩
        | cmp _ _ _ => exact ⟨false, 0, fun _ _ => rfl⟩
      obtain ⟨b, N1, h1⟩ := hb
      obtain ⟨c', N2, h2⟩ := ih ps (j + 1) (if j < i ∧ b = true then c * old else if i = j then c * Δ else c * p) hl
      refine ⟨c', max N1 N2, fun f hf => ?_⟩
      have h2 := h2 f (by omega)
      simp only [deltaProd, h1 f (by omega)]
      by_cases hj : j < i ∧ b = true
      · rw [if_pos hj] at h2 ⊢
        exact h2
      · rw [if_neg hj] at h2 ⊢
        by_cases hij : i = j
        · rw [if_pos hij] at h2 ⊢
          exact h2
        · rw [if_neg hij] at h2 ⊢
          exact h2

theorem drive_ends {g : Cfg K} {chart : Dict Tm K} {cand : Tm → List Tm} {a : Tm} {old Δ : K} :
    Ends noHeap fun f => drive g f chart cand a old Δ := by
  have hrest : ∀ (d : SRule K × Nat × Tm) f (P : List K), Restores (fun h s => match deltaProd f h a d.2.1 old Δ d.1.body P 0 1 with
      | none => none
      | some c => update g.prio f d.1.head c h s) := by
    intro d f P h s h' s' sig e
    simp only at e
    split at e
    · simp at e
    · exact update_restores _ _ _ _ _ e
  refine forEach_ends (b := fun f (d : SRule K × Nat × Tm) => unifyF f a d.2.2 (joinF f chart cand d.1.body [] fun P h s =>
      match deltaProd f h a d.2.1 old Δ d.1.body P 0 1 with
      | none => none
      | some c => update g.prio f d.1.head c h s)) (fun f d => C03_no_trace _ _ _ (joinF_restores (hrest d f) _ _)) fun d _ => ?_
  refine unify_ends (b := fun f => joinF f chart cand d.1.body [] fun P h s =>
      match deltaProd f h a d.2.1 old Δ d.1.body P 0 1 with
      | none => none
      | some c => update g.prio f d.1.head c h s) good_noHeap fun h1 g1 _ => ?_
  refine join_ends (k := fun f P h s => match deltaProd f h a d.2.1 old Δ d.1.body P 0 1 with
      | none => none
      | some c => update g.prio f d.1.head c h s) (fun f P => hrest d f P) d.1.body.length ?_ d.1.body [] h1 (by simp) g1
  intro P h hP hg
  obtain ⟨c, N1, h1⟩ := deltaProd_ends hg (a := a) (i := d.2.1) (old := old) (Δ := Δ) d.1.body P 0 1 hP
  obtain ⟨N2, h2⟩ := update_ends (prio := g.prio) (item := d.1.head) (c := c) hg
  refine ⟨max N1 N2, fun f hf s => ?_⟩
  simp only [h1 f (by omega)]
  exact h2 f (by omega) s

/-- **C94**: without builtins, solver 1 is the choice just for the programs all of whose head variables are in
an item of the body. -/
theorem C94_choice {rules : List (SRule K)} (hi : ∀ r ∈ rules, Items r) :
    solverFor rules none = .solver1 ↔ ∀ r ∈ rules, HeadInItems r := by
  rw [← rr_iff hi]
  unfold solverFor
  split <;> simp_all

/-- **C94**: solver 1 never raises on rules of values, items and equations all of whose variables are bound by the items, directly
or through equations: in no state that it can reach, neither initializing a rule, nor initializing all, nor processing an item of the
agenda ends with an exception. -/
theorem C94_safe {g : Cfg K} (hi : ∀ r ∈ g.rules, NoCmp r) (hh : ∀ r ∈ g.rules, Safe r) {D : List (Tm × K)} {st : St K}
    (hrun : Run g D st) {f : Nat} {cand} (hc : LawfulCand cand) :
    (∀ r ∈ g.rules, ∀ h' s' sig, initRule g f st.chart (cand st.chart) r noHeap st.chg = some (h', s', sig) → sig = .done) ∧
    (∀ st' sig, initAll g f cand g.rules 0 st = some (st', sig) → sig = .done) ∧
    (∀ a ∈ Dict.keys st.chg.agenda, ∀ st' sig, popF g f cand st a = some (st', sig) → sig = .done) := by
  have hinv := sinv_run hh hrun
  have hcd : ∀ c as, ∀ x ∈ cand st.chart (.app (.con c :: as)), x ∈ Dict.keys st.chart := fun c as =>
    (hc st.chart c as hinv.wf hinv.ground).2.1
  refine ⟨fun r hr h' s' sig e => initRule_sig hinv.ground hcd (hi r hr) (hh r hr) e, ?_, ?_⟩
  · have : ∀ (rs : List (SRule K)) i (st1 : St K), (∀ r ∈ rs, r ∈ g.rules) → st1.chart = st.chart → ∀ st' sig,
        initAll g f cand rs i st1 = some (st', sig) → sig = .done := by
      intro rs
      induction rs with
      | nil => intro i st1 _ _ st' sig e; simp [initAll] at e; exact e.2.symm
      | cons r rs ih =>
        intro i st1 hrs hst st' sig e
        simp only [initAll] at e
        split at e
        · exact ih _ _ (fun r hr => hrs r (by simp [hr])) hst _ _ e
        · split at e
          · simp at e
          · exact ih _ ⟨st1.chart, _, i :: st1.inited⟩ (fun r hr => hrs r (by simp [hr])) hst _ _ e
          · rename_i h' s' sg hne e1
            have hr := hrs r (by simp)
            rw [hst] at e1
            have := initRule_sig hinv.ground hcd (hi r hr) (hh r hr) e1
            exact absurd this hne
    exact this g.rules 0 st (fun r hr => hr) rfl
  · intro a ha st' sig e
    have hac := (hinv.chg.ag a).1 ha
    obtain ⟨Δ, hΔ⟩ := (Dict.mem_keys_iff_get _ _).1 hac
    unfold popF at e
    simp only [hΔ] at e
    split at e
    · simp at e; exact e.2.symm
    · split at e
      · simp at e
      · rename_i h1 s' sg hdr
        simp only [Option.some.injEq, Prod.mk.injEq] at e
        obtain ⟨_, rfl⟩ := e
        have hgr : ∀ x ∈ Dict.keys (st.chart.set a ((st.chart.get a).getD 0 + Δ)), Ground x := by
          intro x hx
          rcases (mem_keys_set _ _ _ _).1 hx with rfl | hx
          · exact hinv.chg.ground x hac
          · exact hinv.ground x hx
        exact drive_sig hgr (fun c as => (hc _ c as (hinv.wf.set _ _) hgr).2.1) hi hh hdr

/-- **C94**: a program without builtins for which solver 1 is chosen never makes it raise in the same sense. -/
theorem C94_no_exception {g : Cfg K} (hi : ∀ r ∈ g.rules, Items r) (hw : solverFor g.rules none = .solver1) {D : List (Tm × K)} {st : St K}
    (hrun : Run g D st) {f : Nat} {cand} (hc : LawfulCand cand) :
    (∀ r ∈ g.rules, ∀ h' s' sig, initRule g f st.chart (cand st.chart) r noHeap st.chg = some (h', s', sig) → sig = .done) ∧
    (∀ st' sig, initAll g f cand g.rules 0 st = some (st', sig) → sig = .done) ∧
    (∀ a ∈ Dict.keys st.chg.agenda, ∀ st' sig, popF g f cand st a = some (st', sig) → sig = .done) :=
  C94_safe (fun r hr => noCmp_of (hi r hr)) (fun r hr => safe_of (hi r hr) ((C94_choice hi).1 hw r hr)) hrun hc

/-- **C94**: progress.  With rules as in `C94_safe`, every rule can be initialized and every item on the agenda can be processed in every
state the solver can reach: the step ends, and without an exception. -/
theorem C94_progress {g : Cfg K} (hi : ∀ r ∈ g.rules, NoCmp r) (hh : ∀ r ∈ g.rules, Safe r) {D : List (Tm × K)} {st : St K}
    (hrun : Run g D st) {cand} (hc : LawfulCand cand) :
    (∀ r ∈ g.rules, ∃ N, ∀ f ≥ N, ∃ s', initRule g f st.chart (cand st.chart) r noHeap st.chg = some (noHeap, s', .done)) ∧
    (∀ a ∈ Dict.keys st.chg.agenda, ∃ N, ∀ f ≥ N, ∃ st', popF g f cand st a = some (st', .done)) := by
  have hs := fun f => C94_safe hi hh hrun (f := f) hc
  constructor
  · intro r hr
    obtain ⟨N, hN⟩ := initRule_ends (g := g) (chart := st.chart) (cand := cand st.chart) (r := r)
    refine ⟨N, fun f hf => ?_⟩
    obtain ⟨⟨h', s', sig⟩, e⟩ := hN f hf st.chg
    have h1 := (hs f).1 r hr _ _ _ e
    have h2 : noHeap = h' := by
      refine (joinF_restores ?_ _ _ _ _ _ _ _ e).symm
      intro P h s h' s' sig e
      simp only at e
      split at e
      · simp at e
      · exact update_restores _ _ _ _ _ e
    subst h1 h2
    exact ⟨s', e⟩
  · intro a ha
    cases hΔ : Dict.get st.chg.change a with
    | none =>
      have := (hs 0).2.2 a ha st keyError (by simp [popF, hΔ])
      cases this
    | some Δ =>
      obtain ⟨N, hN⟩ := drive_ends (g := g) (chart := st.chart.set a ((st.chart.get a).getD 0 + Δ))
        (cand := cand (st.chart.set a ((st.chart.get a).getD 0 + Δ))) (a := a) (old := (st.chart.get a).getD 0) (Δ := Δ)
      refine ⟨N, fun f hf => ?_⟩
      obtain ⟨⟨h', s', sig⟩, e⟩ := hN f hf ⟨st.chg.change.del a, st.chg.agenda.del a, st.chg.pushes⟩
      have : ∃ r, popF g f cand st a = some r := by
        unfold popF
        simp only [hΔ]
        split
        · exact ⟨_, rfl⟩
        · simp only at e
          rw [e]; exact ⟨_, rfl⟩
      obtain ⟨⟨st', sig'⟩, e'⟩ := this
      have := (hs f).2.2 a ha _ _ e'
      subst this
      exact ⟨st', e'⟩

/-- **C94**: the choice is necessary.  If a variable of the head is not in the body, then initializing the rule does
not end normally as soon as the body has a match in the chart. -/
theorem C94_needed {g : Cfg K} {f : Nat} {chart : Dict Tm K} {cand : Tm → List Tm} {r : SRule K} {n : Nat}
    (hch : ∀ x ∈ Dict.keys chart, Ground x) (hc : CandOk chart cand) (hi : Items r) (hn : n ∈ vars r.head) (hb : n ∉ bodyVars r)
    {θ : Nat → Tm} (hθ : ∀ t, BLit.sub t ∈ r.body → t.sub θ ∈ Dict.keys chart) {s : Chg K} :
    ∀ h' s', initRule g f chart cand r noHeap s ≠ some (h', s', .done) := by
  intro h' s' e
  have hrest : ∀ P : List K, Restores (fun h s => match multiple g.inf f h r with
      | none => none
      | some m => update g.prio f r.head (P.foldl (· * ·) 1 * m) h s) := by
    intro P h s h' s' sig e
    simp only at e
    split at e
    · simp at e
    · exact update_restores _ _ _ _ _ e
  have hfn : ∀ t, BLit.sub t ∈ r.body → ∃ c as, t = .app (.con c :: as) := by
    intro t ht
    rcases hi _ ht with ⟨c, e⟩ | ⟨c, as, e⟩
    · cases e
    · cases e; exact ⟨c, as, rfl⟩
  obtain ⟨L, hL, hcalls⟩ := join_spec hrest hch hc r.body hfn [] _ _ _ _ good_noHeap e
  let τ : Nat → Tm := Function.update θ n (.var n)
  have hτ : ∀ z ∈ r.body, ∃ v, LitSat chart τ z v := by
    intro z hz
    rcases hi z hz with ⟨c, rfl⟩ | ⟨c, as, rfl⟩
    · exact ⟨c, rfl⟩
    · have : (Tm.app (.con c :: as)).sub τ = (Tm.app (.con c :: as)).sub θ := by
        refine sub_congr fun m hm => ?_
        refine Function.update_of_ne ?_ _ _
        rintro rfl
        exact hb (mem_bodyVars.2 ⟨_, hz, hm⟩)
      obtain ⟨v, hv⟩ := (Dict.mem_keys_iff_get _ _).1 (hθ _ hz)
      exact ⟨v, by simp only [LitSat]; rw [this]; exact hv⟩
  have hvs : ∃ vs, List.Forall₂ (LitSat chart τ) r.body vs := by
    generalize r.body = b at hτ
    induction b with
    | nil => exact ⟨[], .nil⟩
    | cons z b ih =>
      obtain ⟨v, hv⟩ := hτ z (by simp)
      obtain ⟨vs, hvs⟩ := ih fun z hz => hτ z (by simp [hz])
      exact ⟨v :: vs, .cons hv hvs⟩
  obtain ⟨vs, hvs⟩ := hvs
  obtain ⟨p, hp, hpr, _⟩ := hL.complete τ vs (respects_noHeap τ) hvs
  have hcall : ∀ {L : List (List K × Heap)} {s s' : Chg K} {k : List K → Body (Chg K)}, RunCalls k L s s' → ∀ p ∈ L, ∃ s1 s2,
      k p.1 p.2 s1 = some (p.2, s2, .done) := by
    intro L s s' k h
    induction h with
    | nil => simp
    | cons e _ ih =>
      intro p hp
      rcases List.mem_cons.1 hp with rfl | hp
      · exact ⟨_, _, e⟩
      · exact ih p hp
  obtain ⟨s1, s2, e2⟩ := hcall hcalls p hp
  split at e2
  · simp at e2
  · unfold update at e2
    split at e2
    · simp at e2
    · rename_i t eg ed
      have hgr := (ground_val (hL.good p hp) eg).1 rfl
      have := sub_eq_of_ground (hL.good p hp) hgr hpr
      rw [← this] at hgr
      have := ground_of_mem hgr hn
      simp [τ, Ground] at this
    · simp at e2

/-! ### Cases -/
section Examples

private def ct (s : String) : Tm := .con (.str s)
private def X : Tm := .var 0
private def Y : Tm := .var 1

-- path(X,Y) += edge(X,Y).  goal += path(X,Y).
private def prog : List (SRule ℕ) := [⟨.app [ct "path", X, Y], [.sub (.app [ct "edge", X, Y]), .val 2]⟩,
  ⟨.app [ct "goal"], [.sub (.app [ct "path", X, Y])]⟩]

example : solverFor prog none = .solver1 := by decide +kernel
example : ∀ r ∈ prog, Items r := by
  intro r hr z hz
  simp only [prog, List.mem_cons, List.not_mem_nil, or_false] at hr
  rcases hr with rfl | rfl <;> simp only [List.mem_cons, List.not_mem_nil, or_false] at hz
  · rcases hz with rfl | rfl
    · exact .inr ⟨_, _, rfl⟩
    · exact .inl ⟨_, rfl⟩
  · subst hz; exact .inr ⟨_, _, rfl⟩

-- p(X,Y) += q(X) * (Y = f(X)): not without builtins, but all variables are bound
private def rB : SRule ℕ := ⟨.app [ct "p", X, Y], [.eq Y (.app [ct "f", X]), .sub (.app [ct "q", X])]⟩
example : NoCmp rB ∧ Safe rB := by
  have h0 : Bnd rB.body 0 := .sub (t := .app [ct "q", X]) (by simp [rB]) (by simp [ct, X])
  have h1 : Bnd rB.body 1 := .eql (x := Y) (y := .app [ct "f", X]) (by simp [rB]) (fun m hm => by simp [ct, X] at hm; subst hm; exact h0) (by simp [Y])
  refine ⟨?_, fun n hn => ?_, ?_⟩
  · intro z hz
    simp only [rB, List.mem_cons, List.not_mem_nil, or_false] at hz
    rcases hz with rfl | rfl
    · exact .inr (.inr ⟨_, _, rfl⟩)
    · exact .inr (.inl ⟨_, _, rfl⟩)
  · have : n = 0 ∨ n = 1 := by
      rcases hn with hn | ⟨z, hz, hn⟩
      · simpa [rB, ct, X, Y] using hn
      · simp only [rB, List.mem_cons, List.not_mem_nil, or_false] at hz
        rcases hz with rfl | rfl <;> simp [litVars, ct, X, Y] at hn <;> omega
    rcases this with rfl | rfl
    · exact h0
    · exact h1
  · intro t ht
    simp only [rB, List.mem_cons, BLit.sub.injEq, List.not_mem_nil, or_false, reduceCtorEq, false_or] at ht
    subst ht; exact ⟨_, _, rfl⟩

-- p(X,Y) += q(X): solver 2, and solver 1 raises once there is a q
private def rN : SRule ℕ := ⟨.app [ct "p", X, Y], [.sub (.app [ct "q", X])]⟩
example : solverFor [rN] none = .solver2 ∧ 1 ∈ vars rN.head ∧ 1 ∉ bodyVars rN := by decide +kernel
example : (initRule ⟨[rN], none, fun a b => a == b, 0⟩ 40 [(.app [ct "q", ct "a"], 3)] (fun _ => [.app [ct "q", ct "a"]]) rN noHeap
    ⟨[], [], 0⟩).map (·.2.2) = some limitation := by decide +kernel

-- `p(X) += (X = Y)` and `p(X) += (X < Y)`
private def rE : SRule ℕ := ⟨.app [ct "p", X], [.eq X Y]⟩
private def rC : SRule ℕ := ⟨.app [ct "p", X], [.cmp (fun _ _ => true) X (ct "a")]⟩

/-- **C94**: with builtins the choice is not safe.  Two rules that count as range-restricted, because their head
variable is in a builtin; solver 1 is chosen and raises on both. -/
theorem C94_builtin_raises : ∃ r1 r2 : SRule ℕ, solverFor [r1, r2] none = .solver1 ∧
    ∀ (approx : ℕ → ℕ → Bool) (cand : Tm → List Tm) (s : Chg ℕ),
      (initRule ⟨[r1, r2], none, approx, 0⟩ 40 [] cand r1 noHeap s).map (·.2.2) = some limitation ∧
      (initRule ⟨[r1, r2], none, approx, 0⟩ 40 [] cand r2 noHeap s).map (·.2.2) = some instFault :=
  ⟨rE, rC, by decide +kernel, fun _ _ _ => ⟨by rfl, by rfl⟩⟩

end Examples
end SolverFor
end Verif
