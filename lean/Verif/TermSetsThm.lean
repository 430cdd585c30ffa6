/-
Properties C11-C14: anti-unification and the term collections.
-/
import Verif.TermSets
import Verif.TermOpsThm
import Verif.OrderThm

set_option linter.unusedSectionVars false
set_option linter.unusedSimpArgs false

namespace Verif
open Tm

/-! ### Fresh copies with an allocation counter -/

theorem freshV_spec {fv : Nat → Nat} (hfv : Function.Injective fv) (k : Nat) (x : Tm) :
    Variant x (freshV fv k x).1 ∧ k ≤ (freshV fv k x).2 ∧
    ∀ n ∈ vars (freshV fv k x).1, ∃ i, k ≤ i ∧ i < (freshV fv k x).2 ∧ n = fv i := by
  obtain ⟨ws, ew, nd, m, s⟩ := ren_nil (fun i => fv (k + i)) x
  simp only [freshV, ew, s]
  refine ⟨⟨fun n => fv (k + idx ws n), fun a ha b hb hab => ?_, rfl⟩, by omega, fun n hn => ?_⟩
  · have : idx ws a = idx ws b := by have := hfv hab; omega
    exact idx_inj ((m a).2 ha) this
  · rw [mem_vars_ren] at hn
    obtain ⟨a, ha, rfl⟩ := hn
    have : idx ws a < ws.length := List.idxOf_lt_length_of_mem ((m a).2 ha)
    exact ⟨k + idx ws a, by omega, by omega, rfl⟩

/-- variables all among the first `k` allocated -/
def Alloc (fv : Nat → Nat) (k : Nat) (t : Tm) : Prop := ∀ n ∈ vars t, ∃ i < k, n = fv i

theorem Alloc.mono {fv : Nat → Nat} {k k' : Nat} {t : Tm} (h : Alloc fv k t) (hk : k ≤ k') : Alloc fv k' t :=
  fun n hn => by obtain ⟨i, hi, e⟩ := h n hn; exact ⟨i, by omega, e⟩

theorem freshV_alloc {fv : Nat → Nat} (hfv : Function.Injective fv) (k : Nat) (x : Tm) :
    Alloc fv (freshV fv k x).2 (freshV fv k x).1 := fun n hn => by
  obtain ⟨i, _, h, e⟩ := (freshV_spec hfv k x).2.2 n hn; exact ⟨i, h, e⟩

theorem freshV_apart {fv : Nat → Nat} (hfv : Function.Injective fv) {k : Nat} {x s : Tm} (hs : Alloc fv k s) :
    Disjoint (vars s) (vars (freshV fv k x).1) := by
  rw [Finset.disjoint_left]
  intro n h1 h2
  obtain ⟨i, hi, rfl⟩ := hs n h1
  obtain ⟨j, hj, _, e⟩ := (freshV_spec hfv k x).2.2 _ h2
  have := hfv e; omega

/-! ### Fuel -/

theorem coversF_mono {f : Nat} {x y b} (e : Subst.coversF f x y = some b) : Subst.coversF (f + 1) x y = some b := by
  unfold Subst.coversF at *
  rw [Option.map_eq_some_iff] at *
  obtain ⟨r, e, h⟩ := e
  exact ⟨r, Subst.coverF_mono _ _ _ _ e, h⟩

theorem sameF_mono {f : Nat} {x y b} (e : Subst.sameF f x y = some b) : Subst.sameF (f + 1) x y = some b := by
  unfold Subst.sameF at *
  cases h1 : Subst.coversF f x y with
  | none => simp [h1] at e
  | some b1 =>
    rw [coversF_mono h1]
    cases b1 with
    | false => simpa [h1] using e
    | true => simp only [h1] at e ⊢; exact coversF_mono e

theorem unifiesF_mono {f : Nat} {x y h b} (e : Heap.unifiesF f x y h = some b) :
    Heap.unifiesF (f + 1) x y h = some b := by
  unfold Heap.unifiesF at *
  rw [Option.map_eq_some_iff] at *
  obtain ⟨r, e, h⟩ := e
  exact ⟨r, Heap.unify_mono_le (Nat.le_succ f) e, h⟩

theorem addAll_mono {σ : Type} {add : Nat → σ → Tm → Option σ}
    (hm : ∀ f S t S', add f S t = some S' → add (f + 1) S t = some S') {f : Nat} :
    ∀ ts S S', addAll (add f) S ts = some S' → addAll (add (f + 1)) S ts = some S' := by
  intro ts
  induction ts with
  | nil => intro S S' e; exact e
  | cons t ts ih =>
    intro S S' e
    rw [addAll] at e ⊢
    cases h1 : add f S t with
    | none => simp [h1] at e
    | some S1 => rw [hm _ _ _ _ h1]; simp only [h1] at e ⊢; exact ih _ _ e

theorem mono_le {α : Type} {g : Nat → Option α} (hm : ∀ f r, g f = some r → g (f + 1) = some r) {f f' : Nat} {r : α}
    (hf : f ≤ f') (e : g f = some r) : g f' = some r := by
  induction hf with
  | refl => exact e
  | step _ ih => exact hm _ _ ih

/-- histories terminate when single additions do -/
theorem addAll_total {σ : Type} {add : Nat → σ → Tm → Option σ} (Inv : σ → Prop)
    (hm : ∀ f S t S', add f S t = some S' → add (f + 1) S t = some S')
    (ht : ∀ S t, Inv S → ∃ f S', add f S t = some S' ∧ Inv S') :
    ∀ ts S, Inv S → ∃ N, ∀ f ≥ N, addAll (add f) S ts ≠ none := by
  intro ts
  induction ts with
  | nil => intro S _; exact ⟨0, fun f _ => by simp [addAll]⟩
  | cons t ts ih =>
    intro S hS
    obtain ⟨f0, S', e, hS'⟩ := ht S t hS
    obtain ⟨N, hN⟩ := ih S' hS'
    refine ⟨max N f0, fun f hf => ?_⟩
    rw [addAll, mono_le (g := fun f => add f S t) (fun f r => hm f S t r) (le_trans (le_max_right N f0) hf) e]
    exact hN f (le_trans (le_max_left _ _) hf)

/-! ### Property C12: MostGeneralSet -/
namespace MostGeneral

structure Inv (fv : Nat → Nat) (S : TSet) (added : List Tm) : Prop where
  alloc : ∀ s ∈ S.xs, Alloc fv S.k s
  disj : S.xs.Pairwise fun a b => Disjoint (vars a) (vars b)
  anti : S.xs.Pairwise fun a b => ¬ InstanceOf a b ∧ ¬ InstanceOf b a
  cov : ∀ t ∈ added, ∃ s ∈ S.xs, InstanceOf t s
  src : ∀ s ∈ S.xs, ∃ t ∈ added, Variant t s

theorem scan_spec {f : Nat} {r : Tm} : ∀ (l : List Tm), (∀ s ∈ l, Disjoint (vars s) (vars r)) → ∀ res,
    scan f r l = some res → (res = none → ∃ s ∈ l, InstanceOf r s) ∧
      ∀ keep, res = some keep → keep.Sublist l ∧ (∀ s ∈ l, ¬ InstanceOf r s) ∧
        (∀ s ∈ l, s ∈ keep ∨ InstanceOf s r) ∧ (∀ s ∈ keep, ¬ InstanceOf s r) := by
  intro l
  induction l with
  | nil => intro _ res e; simp [scan] at e; subst e; simp
  | cons s l ih =>
    intro hd res e
    rw [scan] at e
    cases h1 : Subst.coversF f s r with
    | none => simp [h1] at e
    | some b1 =>
      have c1 := (Subst.C06_covers (hd s (by simp))).2 f b1 h1
      cases b1 with
      | true =>
        simp only [h1, Option.some.injEq] at e; subst e
        exact ⟨fun _ => ⟨s, by simp, c1.1 rfl⟩, by simp⟩
      | false =>
        simp only [h1] at e
        cases h2 : Subst.coversF f r s with
        | none => simp [h2] at e
        | some b2 =>
          have c2 := (Subst.C06_covers (hd s (by simp)).symm).2 f b2 h2
          simp only [h2] at e
          cases h3 : scan f r l with
          | none => simp [h3] at e
          | some res1 =>
            obtain ⟨i1, i2⟩ := ih (fun s hs => hd s (by simp [hs])) res1 h3
            cases res1 with
            | none =>
              simp only [h3, Option.some.injEq] at e; subst e
              obtain ⟨s', hs', hi⟩ := i1 rfl
              exact ⟨fun _ => ⟨s', by simp [hs'], hi⟩, by simp⟩
            | some keep1 =>
              obtain ⟨j1, j2, j3, j4⟩ := i2 keep1 rfl
              simp only [h3, Option.some.injEq] at e; subst e
              refine ⟨by simp, ?_⟩
              rintro keep hk
              simp only [Option.some.injEq] at hk
              have hn : ¬ InstanceOf r s := fun h => by simpa using c1.2 h
              refine ⟨?_, ?_, ?_, ?_⟩
              · subst hk; split
                · exact j1.cons s
                · exact j1.cons₂ s
              · intro t ht; rcases List.mem_cons.1 ht with rfl | ht
                · exact hn
                · exact j2 t ht
              · intro t ht
                rcases List.mem_cons.1 ht with rfl | ht
                · cases b2 with
                  | true => exact .inr (c2.1 rfl)
                  | false => left; subst hk; simp
                · rcases j3 t ht with h | h
                  · left; subst hk; split <;> simp [h]
                  · exact .inr h
              · intro t ht
                subst hk
                split at ht
                · exact j4 t ht
                · rename_i hb
                  rcases List.mem_cons.1 ht with rfl | ht
                  · intro hi; exact hb (c2.2 hi)
                  · exact j4 t ht

theorem scan_total {r : Tm} : ∀ (l : List Tm), (∀ s ∈ l, Disjoint (vars s) (vars r)) →
    ∃ N, ∀ f ≥ N, scan f r l ≠ none := by
  intro l
  induction l with
  | nil => intro _; exact ⟨0, fun f _ => by simp [scan]⟩
  | cons s l ih =>
    intro hd
    obtain ⟨N1, h1⟩ := (Subst.C06_covers (hd s (by simp))).1
    obtain ⟨N2, h2⟩ := (Subst.C06_covers (hd s (by simp)).symm).1
    obtain ⟨N3, h3⟩ := ih (fun s hs => hd s (by simp [hs]))
    refine ⟨max N1 (max N2 N3), fun f hf => ?_⟩
    rw [scan]
    cases e1 : Subst.coversF f s r with
    | none => exact absurd e1 (h1 f (by omega))
    | some b1 => cases b1 with
      | true => simp
      | false =>
        cases e2 : Subst.coversF f r s with
        | none => exact absurd e2 (h2 f (by omega))
        | some b2 =>
          cases e3 : scan f r l with
          | none => exact absurd e3 (h3 f (by omega))
          | some q => cases q <;> simp

theorem scan_mono {f : Nat} {r : Tm} : ∀ l q, scan f r l = some q → scan (f + 1) r l = some q := by
  intro l
  induction l with
  | nil => intro q e; exact e
  | cons s l ih =>
    intro q e
    rw [scan] at e ⊢
    cases h1 : Subst.coversF f s r with
    | none => simp [h1] at e
    | some b1 =>
      rw [coversF_mono h1]
      cases b1 with
      | true => simpa [h1] using e
      | false =>
        simp only [h1] at e ⊢
        cases h2 : Subst.coversF f r s with
        | none => simp [h2] at e
        | some b2 =>
          rw [coversF_mono h2]
          simp only [h2] at e ⊢
          cases h3 : scan f r l with
          | none => simp [h3] at e
          | some q' => rw [ih _ h3]; simpa only [h3] using e

theorem add_inv {fv : Nat → Nat} (hfv : Function.Injective fv) {f : Nat} {S S' : TSet} {added : List Tm} {t : Tm}
    {b : Bool} (hi : Inv fv S added) (e : add fv f S t = some (S', b)) : Inv fv S' (added ++ [t]) := by
  obtain ⟨hv, hk, hvars⟩ := freshV_spec hfv S.k t
  have hd : ∀ s ∈ S.xs, Disjoint (vars s) (vars (freshV fv S.k t).1) := fun s hs => freshV_apart hfv (hi.alloc s hs)
  unfold add at e
  simp only at e
  cases h1 : scan f (freshV fv S.k t).1 S.xs with
  | none => simp [h1] at e
  | some q =>
    obtain ⟨i1, i2⟩ := scan_spec S.xs hd q h1
    cases q with
    | none =>
      simp only [h1, Option.some.injEq, Prod.mk.injEq] at e
      obtain ⟨e, _⟩ := e; subst e
      refine ⟨fun s hs => (hi.alloc s hs).mono hk, hi.disj, hi.anti, fun u hu => ?_, fun s hs => ?_⟩
      · rcases List.mem_append.1 hu with hu | hu
        · exact hi.cov u hu
        · simp at hu; subst hu
          obtain ⟨s, hs, h⟩ := i1 rfl
          exact ⟨s, hs, hv.symm.instanceOf.trans h⟩
      · obtain ⟨u, hu, h⟩ := hi.src s hs; exact ⟨u, by simp [hu], h⟩
    | some keep =>
      obtain ⟨j1, j2, j3, j4⟩ := i2 keep rfl
      simp only [h1, Option.some.injEq, Prod.mk.injEq] at e
      obtain ⟨e, _⟩ := e; subst e
      refine ⟨fun s hs => ?_, ?_, ?_, fun u hu => ?_, fun s hs => ?_⟩
      · rcases List.mem_append.1 hs with hs | hs
        · exact (hi.alloc s (j1.subset hs)).mono hk
        · simp at hs; subst hs; exact freshV_alloc hfv _ _
      · refine List.pairwise_append.2 ⟨hi.disj.sublist j1, by simp, fun a ha b hb => ?_⟩
        simp at hb; subst hb; exact hd a (j1.subset ha)
      · refine List.pairwise_append.2 ⟨hi.anti.sublist j1, by simp, fun a ha b hb => ?_⟩
        simp at hb; subst hb; exact ⟨j4 a ha, j2 a (j1.subset ha)⟩
      · rcases List.mem_append.1 hu with hu | hu
        · obtain ⟨s, hs, h⟩ := hi.cov u hu
          rcases j3 s hs with h' | h'
          · exact ⟨s, by simp [h'], h⟩
          · exact ⟨_, by simp, h.trans h'⟩
        · simp at hu; subst hu; exact ⟨_, by simp, hv.symm.instanceOf⟩
      · rcases List.mem_append.1 hs with hs | hs
        · obtain ⟨u, hu, h⟩ := hi.src s (j1.subset hs); exact ⟨u, by simp [hu], h⟩
        · simp at hs; subst hs; exact ⟨t, by simp, hv⟩

/-- `add` as a state transformer -/
def add' (fv : Nat → Nat) (f : Nat) (S : TSet) (t : Tm) : Option TSet := (add fv f S t).map (·.1)

theorem add'_mono {fv : Nat → Nat} (f S t S') (e : add' fv f S t = some S') : add' fv (f + 1) S t = some S' := by
  unfold add' add at *
  simp only [Option.map_eq_some_iff] at *
  obtain ⟨q, e, h⟩ := e
  refine ⟨q, ?_, h⟩
  cases h1 : scan f (freshV fv S.k t).1 S.xs with
  | none => simp [h1] at e
  | some r => rw [scan_mono _ _ h1]; simpa only [h1] using e

theorem addAll_inv {fv : Nat → Nat} (hfv : Function.Injective fv) {f : Nat} : ∀ ts S S' added, Inv fv S added →
    addAll (add' fv f) S ts = some S' → Inv fv S' (added ++ ts) := by
  intro ts
  induction ts with
  | nil => intro S S' added hi e; simp [addAll] at e; subst e; simpa using hi
  | cons t ts ih =>
    intro S S' added hi e
    rw [addAll] at e
    cases h1 : add' fv f S t with
    | none => simp [h1] at e
    | some S1 =>
      simp only [h1] at e
      unfold add' at h1
      rw [Option.map_eq_some_iff] at h1
      obtain ⟨⟨S2, b⟩, h2, rfl⟩ := h1
      have := ih _ _ (added ++ [t]) (add_inv hfv hi h2) e
      simpa using this

theorem inv_empty (fv : Nat → Nat) (k : Nat) : Inv fv ⟨[], k⟩ [] := ⟨by simp, by simp, by simp, by simp, by simp⟩

/-- After any history: every added pattern is covered by a stored one, every stored pattern is a renaming
of an added one, and no stored pattern covers another. -/
theorem C12_antichain {fv : Nat → Nat} (hfv : Function.Injective fv) {f k : Nat} {ts : List Tm} {S : TSet}
    (e : addAll (add' fv f) ⟨[], k⟩ ts = some S) :
    (∀ t ∈ ts, ∃ s ∈ S.xs, InstanceOf t s) ∧ (∀ s ∈ S.xs, ∃ t ∈ ts, Variant t s) ∧
    S.xs.Pairwise (fun a b => ¬ InstanceOf a b ∧ ¬ InstanceOf b a) := by
  have := addAll_inv hfv ts _ _ [] (inv_empty fv k) e
  simp only [List.nil_append] at this
  exact ⟨this.cov, this.src, this.anti⟩

/-- Hence the stored patterns are exactly the maximal added ones (up to renaming). -/
theorem C12_maximal {fv : Nat → Nat} (hfv : Function.Injective fv) {f k : Nat} {ts : List Tm} {S : TSet}
    (e : addAll (add' fv f) ⟨[], k⟩ ts = some S) {t : Tm} (ht : t ∈ ts) :
    (∃ s ∈ S.xs, Variant t s) ↔ ∀ u ∈ ts, InstanceOf t u → InstanceOf u t := by
  obtain ⟨h1, h2, h3⟩ := C12_antichain hfv e
  constructor
  · rintro ⟨s, hs, hv⟩ u hu hi
    obtain ⟨s', hs', hi'⟩ := h1 u hu
    have hss : InstanceOf s s' := (hv.instanceOf.trans hi).trans hi'
    have : s = s' := by
      by_contra hne
      have := (List.Pairwise.forall_of_forall_of_flip (R := fun a b => a ≠ b → ¬ InstanceOf a b ∧ ¬ InstanceOf b a)
        (l := S.xs) (fun _ _ h => absurd rfl h) (h3.imp (fun {a b} h (_ : a ≠ b) => h))
        (h3.imp (fun {a b} h (_ : b ≠ a) => ⟨h.2, h.1⟩))) hs hs' hne
      exact this.1 hss
    subst this
    exact hi'.trans hv.instanceOf
  · intro hm
    obtain ⟨s, hs, hi⟩ := h1 t ht
    obtain ⟨u, hu, hv⟩ := h2 s hs
    have hi2 : InstanceOf t u := hi.trans hv.instanceOf
    refine ⟨s, hs, variant_iff_instances.2 ⟨?_, hi⟩⟩
    exact hv.instanceOf.trans (hm u hu hi2)

/-- Every history of additions terminates. -/
theorem C12_terminates {fv : Nat → Nat} (hfv : Function.Injective fv) (k : Nat) (ts : List Tm) :
    ∃ N, ∀ f ≥ N, addAll (add' fv f) ⟨[], k⟩ ts ≠ none := by
  refine addAll_total (add := fun f => add' fv f) (fun S => ∃ added, Inv fv S added) add'_mono ?_ ts _
    ⟨[], inv_empty fv k⟩
  rintro S t ⟨added, hi⟩
  obtain ⟨N, hN⟩ := scan_total S.xs fun s hs => freshV_apart hfv (x := t) (hi.alloc s hs)
  have h1 := hN N (le_refl _)
  cases h2 : add fv N S t with
  | none =>
    unfold add at h2; simp only at h2
    cases h3 : scan N (freshV fv S.k t).1 S.xs with
    | none => exact absurd h3 h1
    | some q => cases q <;> simp [h3] at h2
  | some q => exact ⟨N, q.1, by simp [add', h2], _, add_inv hfv hi h2⟩

theorem findGo_spec {f : Nat} {x : Tm} : ∀ l, (∀ s ∈ l, Disjoint (vars s) (vars x)) → ∀ r, findGo f x l = some r →
    (∀ s, r = some s → s ∈ l ∧ InstanceOf x s) ∧ (r = none → ∀ s ∈ l, ¬ InstanceOf x s) := by
  intro l
  induction l with
  | nil => intro _ r e; simp [findGo] at e; subst e; simp
  | cons s l ih =>
    intro hd r e
    rw [findGo] at e
    cases h1 : Subst.coversF f s x with
    | none => simp [h1] at e
    | some b1 =>
      have c1 := (Subst.C06_covers (hd s (by simp))).2 f b1 h1
      cases b1 with
      | true =>
        simp only [h1, Option.some.injEq] at e; subst e
        exact ⟨by rintro _ ⟨⟩; exact ⟨by simp, c1.1 rfl⟩, by simp⟩
      | false =>
        simp only [h1] at e
        obtain ⟨i1, i2⟩ := ih (fun s hs => hd s (by simp [hs])) r e
        refine ⟨fun s' h => ⟨by simp [(i1 s' h).1], (i1 s' h).2⟩, fun h s' hs' => ?_⟩
        rcases List.mem_cons.1 hs' with rfl | hs'
        · intro hi; simpa using c1.2 hi
        · exact i2 h s' hs'

/-- `root(x)` returns a stored pattern covering `x`, and raises `KeyError` only if there is none. -/
theorem C12_root {fv : Nat → Nat} (hfv : Function.Injective fv) {f k g : Nat} {ts : List Tm} {S : TSet} {x : Tm} {r}
    (e : addAll (add' fv f) ⟨[], k⟩ ts = some S) (er : root fv g S x = some r) :
    (∀ s, r = some s → s ∈ S.xs ∧ InstanceOf x s) ∧ (r = none → ∀ s ∈ S.xs, ¬ InstanceOf x s) := by
  have hi := addAll_inv hfv ts _ _ [] (inv_empty fv k) e
  have hv := variant_iff_instances.1 (freshV_spec hfv S.k x).1
  obtain ⟨h1, h2⟩ := findGo_spec S.xs (fun s hs => freshV_apart hfv (hi.alloc s hs)) r er
  refine ⟨fun s hs => ⟨(h1 s hs).1, hv.2.trans (h1 s hs).2⟩, fun h s hs hc => h2 h s hs (hv.1.trans hc)⟩

end MostGeneral

/-! ### Property C14: NoDupsSet -/
namespace NoDups

structure Inv (fv : Nat → Nat) (S : TSet) (added : List Tm) : Prop where
  alloc : ∀ s ∈ S.xs, Alloc fv S.k s
  anti : S.xs.Pairwise fun a b => ¬ Variant a b
  cov : ∀ t ∈ added, ∃ s ∈ S.xs, Variant t s
  src : ∀ s ∈ S.xs, ∃ t ∈ added, Variant t s

theorem scan_spec {f : Nat} {r : Tm} : ∀ (l : List Tm), (∀ s ∈ l, Disjoint (vars s) (vars r)) → ∀ b,
    scan f r l = some b → (b = true ↔ ∃ s ∈ l, Variant r s) := by
  intro l
  induction l with
  | nil => intro _ b e; simp [scan] at e; subst e; simp
  | cons s l ih =>
    intro hd b e
    rw [scan] at e
    cases h1 : Subst.sameF f r s with
    | none => simp [h1] at e
    | some b1 =>
      have c1 := Subst.C06_same (hd s (by simp)).symm h1
      cases b1 with
      | true => simp only [h1, Option.some.injEq] at e; subst e; simp; exact .inl (c1.1 rfl)
      | false =>
        simp only [h1] at e
        rw [ih (fun s hs => hd s (by simp [hs])) b e]
        have : ¬ Variant r s := fun h => by simpa using c1.2 h
        simp [this]

theorem scan_mono {f : Nat} {r : Tm} : ∀ l q, scan f r l = some q → scan (f + 1) r l = some q := by
  intro l
  induction l with
  | nil => intro q e; exact e
  | cons s l ih =>
    intro q e
    rw [scan] at e ⊢
    cases h1 : Subst.sameF f r s with
    | none => simp [h1] at e
    | some b1 =>
      rw [sameF_mono h1]
      cases b1 with
      | true => simpa [h1] using e
      | false => simp only [h1] at e ⊢; exact ih _ e

theorem scan_total {r : Tm} : ∀ (l : List Tm), (∀ s ∈ l, Disjoint (vars s) (vars r)) →
    ∃ N, ∀ f ≥ N, scan f r l ≠ none := by
  intro l
  induction l with
  | nil => intro _; exact ⟨0, fun f _ => by simp [scan]⟩
  | cons s l ih =>
    intro hd
    obtain ⟨N1, h1⟩ := Subst.C06_same_terminates (hd s (by simp)).symm
    obtain ⟨N3, h3⟩ := ih (fun s hs => hd s (by simp [hs]))
    refine ⟨max N1 N3, fun f hf => ?_⟩
    rw [scan]
    cases e1 : Subst.sameF f r s with
    | none => exact absurd e1 (h1 f (by omega))
    | some b1 => cases b1 with
      | true => simp
      | false => exact h3 f (by omega)

theorem add_inv {fv : Nat → Nat} (hfv : Function.Injective fv) {f : Nat} {S S' : TSet} {added : List Tm} {t : Tm}
    (hi : Inv fv S added) (e : add fv f S t = some S') : Inv fv S' (added ++ [t]) := by
  obtain ⟨hv, hk, hvars⟩ := freshV_spec hfv S.k t
  have hd : ∀ s ∈ S.xs, Disjoint (vars s) (vars (freshV fv S.k t).1) := fun s hs => freshV_apart hfv (hi.alloc s hs)
  unfold add at e
  simp only at e
  cases h1 : scan f (freshV fv S.k t).1 S.xs with
  | none => simp [h1] at e
  | some q =>
    have i1 := scan_spec S.xs hd q h1
    cases q with
    | true =>
      simp only [h1, Option.some.injEq] at e
      subst e
      refine ⟨fun s hs => (hi.alloc s hs).mono hk, hi.anti, fun u hu => ?_, fun s hs => ?_⟩
      · rcases List.mem_append.1 hu with hu | hu
        · exact hi.cov u hu
        · simp at hu; subst hu
          obtain ⟨s, hs, h⟩ := i1.1 rfl
          exact ⟨s, hs, hv.trans h⟩
      · obtain ⟨u, hu, h⟩ := hi.src s hs; exact ⟨u, by simp [hu], h⟩
    | false =>
      simp only [h1, Option.some.injEq] at e
      subst e
      refine ⟨fun s hs => ?_, ?_, fun u hu => ?_, fun s hs => ?_⟩
      · rcases List.mem_append.1 hs with hs | hs
        · exact (hi.alloc s hs).mono hk
        · simp at hs; subst hs; exact freshV_alloc hfv _ _
      · refine List.pairwise_append.2 ⟨hi.anti, by simp, fun a ha b hb => ?_⟩
        simp at hb; subst hb
        intro h; simpa using i1.2 ⟨a, ha, h.symm⟩
      · rcases List.mem_append.1 hu with hu | hu
        · obtain ⟨s, hs, h⟩ := hi.cov u hu; exact ⟨s, by simp [hs], h⟩
        · simp at hu; subst hu; exact ⟨_, by simp, hv⟩
      · rcases List.mem_append.1 hs with hs | hs
        · obtain ⟨u, hu, h⟩ := hi.src s hs; exact ⟨u, by simp [hu], h⟩
        · simp at hs; subst hs; exact ⟨t, by simp, hv⟩

theorem add_mono {fv : Nat → Nat} (f S t S') (e : add fv f S t = some S') : add fv (f + 1) S t = some S' := by
  unfold add at *
  simp only at *
  cases h1 : scan f (freshV fv S.k t).1 S.xs with
  | none => simp [h1] at e
  | some r => rw [scan_mono _ _ h1]; simpa only [h1] using e

theorem addAll_inv {fv : Nat → Nat} (hfv : Function.Injective fv) {f : Nat} : ∀ ts S S' added, Inv fv S added →
    addAll (add fv f) S ts = some S' → Inv fv S' (added ++ ts) := by
  intro ts
  induction ts with
  | nil => intro S S' added hi e; simp [addAll] at e; subst e; simpa using hi
  | cons t ts ih =>
    intro S S' added hi e
    rw [addAll] at e
    cases h1 : add fv f S t with
    | none => simp [h1] at e
    | some S1 =>
      simp only [h1] at e
      have := ih _ _ (added ++ [t]) (add_inv hfv hi h1) e
      simpa using this

theorem inv_empty (fv : Nat → Nat) (k : Nat) : Inv fv ⟨[], k⟩ [] := ⟨by simp, by simp, by simp, by simp⟩

/-- After any history there is exactly one representative per renaming class of added terms. -/
theorem C14_classes {fv : Nat → Nat} (hfv : Function.Injective fv) {f k : Nat} {ts : List Tm} {S : TSet}
    (e : addAll (add fv f) ⟨[], k⟩ ts = some S) :
    (∀ x, (∃ s ∈ S.xs, Variant x s) ↔ ∃ t ∈ ts, Variant x t) ∧ S.xs.Pairwise (fun a b => ¬ Variant a b) := by
  have hi := addAll_inv hfv ts _ _ [] (inv_empty fv k) e
  simp only [List.nil_append] at hi
  refine ⟨fun x => ⟨?_, ?_⟩, hi.anti⟩
  · rintro ⟨s, hs, h⟩; obtain ⟨t, ht, h'⟩ := hi.src s hs; exact ⟨t, ht, h.trans h'.symm⟩
  · rintro ⟨t, ht, h⟩; obtain ⟨s, hs, h'⟩ := hi.cov t ht; exact ⟨s, hs, h.trans h'⟩

theorem C14_terminates {fv : Nat → Nat} (hfv : Function.Injective fv) (k : Nat) (ts : List Tm) :
    ∃ N, ∀ f ≥ N, addAll (add fv f) ⟨[], k⟩ ts ≠ none := by
  refine addAll_total (add := fun f => add fv f) (fun S => ∃ added, Inv fv S added) add_mono ?_ ts _
    ⟨[], inv_empty fv k⟩
  rintro S t ⟨added, hi⟩
  obtain ⟨N, hN⟩ := scan_total S.xs fun s hs => freshV_apart hfv (x := t) (hi.alloc s hs)
  have h1 := hN N (le_refl _)
  cases h2 : add fv N S t with
  | none =>
    unfold add at h2; simp only at h2
    cases h3 : scan N (freshV fv S.k t).1 S.xs with
    | none => exact absurd h3 h1
    | some q => cases q <;> simp [h3] at h2
  | some q => exact ⟨N, q, h2, _, add_inv hfv hi h2⟩

theorem findGo_spec {f : Nat} {x : Tm} : ∀ l, (∀ s ∈ l, Disjoint (vars s) (vars x)) → ∀ r, findGo f x l = some r →
    (∀ s, r = some s → s ∈ l ∧ Variant s x) ∧ (r = none → ∀ s ∈ l, ¬ Variant s x) := by
  intro l
  induction l with
  | nil => intro _ r e; simp [findGo] at e; subst e; simp
  | cons s l ih =>
    intro hd r e
    rw [findGo] at e
    cases h1 : Subst.sameF f s x with
    | none => simp [h1] at e
    | some b1 =>
      have c1 := Subst.C06_same (hd s (by simp)) h1
      cases b1 with
      | true =>
        simp only [h1, Option.some.injEq] at e; subst e
        exact ⟨by rintro _ ⟨⟩; exact ⟨by simp, c1.1 rfl⟩, by simp⟩
      | false =>
        simp only [h1] at e
        obtain ⟨i1, i2⟩ := ih (fun s hs => hd s (by simp [hs])) r e
        refine ⟨fun s' h => ⟨by simp [(i1 s' h).1], (i1 s' h).2⟩, fun h s' hs' => ?_⟩
        rcases List.mem_cons.1 hs' with rfl | hs'
        · intro hi; simpa using c1.2 hi
        · exact i2 h s' hs'

/-- `root(x)` finds the representative of `x`, and raises `KeyError` exactly if no renaming of `x` was added. -/
theorem C14_root {fv : Nat → Nat} (hfv : Function.Injective fv) {f k g : Nat} {ts : List Tm} {S : TSet} {x : Tm} {r}
    (e : addAll (add fv f) ⟨[], k⟩ ts = some S) (er : root fv g S x = some r) :
    (∀ s, r = some s → s ∈ S.xs ∧ Variant x s) ∧ (r = none ↔ ¬ ∃ t ∈ ts, Variant x t) := by
  have hi := addAll_inv hfv ts _ _ [] (inv_empty fv k) e
  have hv := (freshV_spec hfv S.k x).1
  obtain ⟨h1, h2⟩ := findGo_spec S.xs (fun s hs => freshV_apart hfv (hi.alloc s hs)) r er
  refine ⟨fun s hs => ⟨(h1 s hs).1, hv.trans (h1 s hs).2.symm⟩, ?_⟩
  rw [← (C14_classes hfv e).1 x]
  constructor
  · rintro h ⟨s, hs, hc⟩; exact h2 h s hs (hc.symm.trans hv)
  · intro h
    cases r with
    | none => rfl
    | some s => exact absurd ⟨s, (h1 s rfl).1, hv.trans (h1 s rfl).2.symm⟩ h

end NoDups

section Examples
private def f2 (a b : Tm) : Tm := .app [.con (.str "f"), a, b]
private def ci (i : Int) : Tm := .con (.int i)
-- adding f(1,X), f(Y,2), f(U,V), f(3,3): only the last pattern f(U,V) survives
example : (addAll (MostGeneral.add' id 30) ⟨[], 50⟩ [f2 (ci 1) (.var 0), f2 (.var 0) (ci 2), f2 (.var 0) (.var 1),
    f2 (ci 3) (ci 3)]).map (·.xs) = some [f2 (.var 52) (.var 53)] := by rfl
example : (addAll (NoDups.add id 30) ⟨[], 50⟩ [f2 (.var 0) (.var 1), f2 (.var 1) (.var 0), f2 (.var 0) (.var 0)]).map
    (·.xs) = some [f2 (.var 50) (.var 51), f2 (.var 54) (.var 54)] := by rfl
end Examples

end Verif
