/-
Properties C01-C04: unification is sound, complete and most general, leaves no trace, terminates and
keeps the store acyclic.
-/
import Verif.UnifyMain

set_option linter.unusedSectionVars false
set_option linter.unusedSimpArgs false

namespace Verif
open Tm
namespace Heap

/-! ### Specification vocabulary (independent of the algorithms) -/

/-- `n'` occurs in the value of `n`. -/
def PointsTo (h : Heap) (n' n : Nat) : Prop := ∃ t, h n = some t ∧ n' ∈ vars t

/-- No infinite chain of bindings; in particular no cycle. -/
def Acyclic (h : Heap) : Prop := WellFounded (PointsTo h)

/-- `t` denotes `t'` once all bindings are followed. -/
inductive Resolves (h : Heap) : Tm → Tm → Prop
  | free {n} : h n = none → Resolves h (.var n) (.var n)
  | bound {n t t'} : h n = some t → Resolves h t t' → Resolves h (.var n) t'
  | con {c} : Resolves h (.con c) (.con c)
  | app {as as' : List Tm} : as.length = as'.length →
      (∀ p ∈ as.zip as', Resolves h p.1 p.2) → Resolves h (.app as) (.app as')

/-- A loop body that leaves the store as it found it (however it ends). -/
def Restores {S : Type} (body : Body S) : Prop :=
  ∀ h s h' s' sig, body h s = some (h', s', sig) → h' = h

/-- The same loop body, noting in a log the store it is entered with. -/
def logged {S : Type} (body : Body S) : Body (S × List Heap) := fun h s =>
  match body h s.1 with
  | none => none
  | some (h', s', sig) => some (h', (s', h :: s.2), sig)

/-! ### Linking the vocabulary to the lemmas -/

theorem deref_resolves {h : Heap} : ∀ {f t t'}, derefF h f t = some t' → Resolves h t t' := by
  intro f
  induction f with
  | zero => intro t t' e; simp [derefF] at e
  | succ f ih =>
    intro t t' e
    cases t with
    | var n =>
      cases hn : h n with
      | none => simp [derefF, hn] at e; subst e; exact .free hn
      | some u => simp only [derefF, hn] at e; exact .bound hn (ih e)
    | con c => simp [derefF] at e; subst e; exact .con
    | app as =>
      obtain ⟨as', rfl, ea⟩ := deref_app.1 e
      refine .app ea.length_eq fun p hp => ih ?_
      have := List.forall₂_zip ea (a := p.1) (b := p.2) hp
      exact this

theorem Resolves.deref {h : Heap} {t t' : Tm} (hr : Resolves h t t') : ∃ f, derefF h f t = some t' := by
  induction hr with
  | free hn => exact ⟨1, by simp [derefF, hn]⟩
  | bound hn _ ih => obtain ⟨f, e⟩ := ih; exact ⟨f + 1, by simp [derefF, hn, e]⟩
  | con => exact ⟨1, by simp [derefF]⟩
  | @app as as' hl _ ih =>
    have : ∃ f, List.Forall₂ (fun a a' => derefF h f a = some a') as as' := by
      rename_i hz; clear hz
      induction as generalizing as' with
      | nil => cases as' with
        | nil => exact ⟨0, .nil⟩
        | cons _ _ => simp at hl
      | cons a as iha =>
        cases as' with
        | nil => simp at hl
        | cons a' as' =>
          obtain ⟨f, hf⟩ := iha (as' := as') (by simpa using hl) (fun p hp => ih p (by simp [hp]))
          obtain ⟨g, hg⟩ := ih (a, a') (by simp)
          exact ⟨max f g, .cons (deref_mono hg (le_max_right _ _))
            (hf.imp fun _ _ e => deref_mono e (le_max_left _ _))⟩
    obtain ⟨f, hf⟩ := this
    exact ⟨f + 1, deref_app.2 ⟨_, rfl, hf⟩⟩

theorem good_iff_acyclic {h : Heap} : Good h ↔ Acyclic h := by
  constructor
  · intro hg
    have key : ∀ f t t', derefF h f t = some t' → ∀ n ∈ vars t, Acc (PointsTo h) n := by
      intro f
      induction f with
      | zero => intro t t' e; simp [derefF] at e
      | succ f ih =>
        intro t t' e n hn
        cases t with
        | var m =>
          simp at hn; subst hn
          constructor
          rintro k ⟨u, hu, hk⟩
          simp only [derefF, hu] at e
          exact ih _ _ e k hk
        | con c => simp at hn
        | app as =>
          obtain ⟨as', rfl, ea⟩ := deref_app.1 e
          simp only [vars_app, mem_varsL] at hn
          obtain ⟨a, ha, hn⟩ := hn
          clear e
          induction ea with
          | nil => simp at ha
          | cons h1 _ ih2 =>
            rcases List.mem_cons.1 ha with rfl | ha
            · exact ih _ _ h1 n hn
            · exact ih2 ha
    refine ⟨fun n => ?_⟩
    obtain ⟨f, t, e⟩ := hg n
    exact key f _ _ e n (by simp)
  · intro ha n
    have key : ∀ t : Tm, (∀ n ∈ vars t, ∃ f u, derefF h f (.var n) = some u) → ∃ f u, derefF h f t = some u := by
      intro t
      induction t using ind with
      | hv n => intro H; exact H n (by simp)
      | hc c => intro _; exact ⟨1, _, rfl⟩
      | ha as ih =>
        intro H
        have : ∃ f as', List.Forall₂ (fun a a' => derefF h f a = some a') as as' := by
          clear * - ih H
          induction as with
          | nil => exact ⟨0, [], .nil⟩
          | cons a as iha =>
            obtain ⟨f, as', hf⟩ := iha (fun t ht => ih t (by simp [ht]))
              (fun n hn => H n (by simp only [vars_app, varsL_cons, Finset.mem_union] at hn ⊢; exact .inr hn))
            obtain ⟨g, a', hg⟩ := ih a (by simp) (fun n hn => H n (by simp [hn]))
            exact ⟨max f g, a' :: as', .cons (deref_mono hg (le_max_right _ _))
              (hf.imp fun _ _ e => deref_mono e (le_max_left _ _))⟩
        obtain ⟨f, as', hf⟩ := this
        exact ⟨f + 1, _, deref_app.2 ⟨as', rfl, hf⟩⟩
    induction n using ha.induction with
    | _ n ih =>
      cases hn : h n with
      | none => exact ⟨1, .var n, by simp [derefF, hn]⟩
      | some t =>
        obtain ⟨f, u, e⟩ := key t (fun k hk => ih k ⟨t, hn, hk⟩)
        exact ⟨f + 1, u, by simp [derefF, hn, e]⟩

/-! ### More fuel never changes a result -/

theorem eq_mono {h : Heap} : ∀ f, (∀ x y b, Heap.eqF h f x y = some b → Heap.eqF h (f + 1) x y = some b) ∧
    (∀ xs ys b, eqLF h f xs ys = some b → eqLF h (f + 1) xs ys = some b) := by
  intro f
  induction f with
  | zero => exact ⟨fun x y b e => by simp [eqF] at e, fun x y b e => by simp [eqLF] at e⟩
  | succ f ih =>
    refine ⟨fun x y b e => ?_, fun xs ys b e => ?_⟩
    · cases x with
      | var n =>
        cases hn : h n with
        | some t => simp only [Heap.eqF, hn] at e ⊢; exact ih.1 _ _ _ e
        | none =>
          cases y with
          | var m =>
            cases hm : h m with
            | some t =>
              rw [Heap.eqF.eq_def] at e ⊢; simp only [hn, hm] at e ⊢; exact ih.1 _ _ _ e
            | none => rw [Heap.eqF.eq_def] at e ⊢; simp only [hn, hm] at e ⊢; exact e
          | con c => rw [Heap.eqF.eq_def] at e ⊢; simp only [hn] at e ⊢; exact e
          | app bs => rw [Heap.eqF.eq_def] at e ⊢; simp only [hn] at e ⊢; exact e
      | con c =>
        cases y with
        | var m =>
          cases hm : h m with
          | some t => rw [Heap.eqF.eq_def] at e ⊢; simp only [hm] at e ⊢; exact ih.1 _ _ _ e
          | none => rw [Heap.eqF.eq_def] at e ⊢; simp only [hm] at e ⊢; exact e
        | con c => exact e
        | app bs => exact e
      | app as =>
        cases y with
        | var m =>
          cases hm : h m with
          | some t => rw [Heap.eqF.eq_def] at e ⊢; simp only [hm] at e ⊢; exact ih.1 _ _ _ e
          | none => rw [Heap.eqF.eq_def] at e ⊢; simp only [hm] at e ⊢; exact e
        | con c => exact e
        | app bs => rw [Heap.eqF.eq_def] at e ⊢; exact ih.2 _ _ _ e
    · cases xs with
      | nil => cases ys <;> simpa [eqLF] using e
      | cons x xs =>
        cases ys with
        | nil => simpa [eqLF] using e
        | cons y ys =>
          rw [eqLF] at e ⊢
          cases h1 : Heap.eqF h f x y with
          | none => simp [h1] at e
          | some b1 =>
            rw [ih.1 _ _ _ h1]
            cases b1 with
            | false => simpa [h1] using e
            | true => simp only [h1] at e; exact ih.2 _ _ _ e

theorem occurs_mono {h : Heap} : ∀ f, (∀ v x b, Heap.occursF h f v x = some b → Heap.occursF h (f + 1) v x = some b) ∧
    (∀ v xs b, occursLF h f v xs = some b → occursLF h (f + 1) v xs = some b) := by
  intro f
  induction f with
  | zero => exact ⟨fun x y b e => by simp [occursF] at e, fun x y b e => by simp [occursLF] at e⟩
  | succ f ih =>
    refine ⟨fun v x b e => ?_, fun v xs b e => ?_⟩
    · rw [Heap.occursF.eq_def] at e ⊢; simp only at e ⊢
      cases x with
      | var n =>
        simp only at e ⊢
        split at e
        · simp_all
        · rename_i hne
          rw [if_neg hne]
          cases hn : h n with
          | none => simpa [hn] using e
          | some t => simp only [hn] at e ⊢; exact ih.1 _ _ _ e
      | con c => simpa using e
      | app as => simp only at e ⊢; exact ih.2 _ _ _ e
    · cases xs with
      | nil => simpa [occursLF] using e
      | cons x xs =>
        rw [occursLF] at e ⊢
        cases h1 : Heap.occursF h f v x with
        | none => simp [h1] at e
        | some b1 =>
          rw [ih.1 _ _ _ h1]
          cases b1 with
          | true => simpa [h1] using e
          | false => simp only [h1] at e; exact ih.2 _ _ _ e

theorem unify_mono {S : Type} : ∀ f,
    (∀ x y (b b' : Body S) h s r, (∀ h s r, b h s = some r → b' h s = some r) →
      unifyF f x y b h s = some r → unifyF (f + 1) x y b' h s = some r) ∧
    (∀ n y (b b' : Body S) h s r, (∀ h s r, b h s = some r → b' h s = some r) →
      bindF f n y b h s = some r → bindF (f + 1) n y b' h s = some r) ∧
    (∀ xs ys (b b' : Body S) h s r, (∀ h s r, b h s = some r → b' h s = some r) →
      unifyNF f xs ys b h s = some r → unifyNF (f + 1) xs ys b' h s = some r) := by
  intro f
  induction f with
  | zero =>
    exact ⟨fun x y b b' h s r _ e => by simp [unifyF] at e, fun x y b b' h s r _ e => by simp [bindF] at e,
      fun x y b b' h s r _ e => by simp [unifyNF] at e⟩
  | succ f ih =>
    obtain ⟨ih1, ih2, ih3⟩ := ih
    refine ⟨fun x y b b' h s r hb e => ?_, fun n y b b' h s r hb e => ?_, fun xs ys b b' h s r hb e => ?_⟩
    · rw [unifyF.eq_def] at e ⊢; simp only at e ⊢
      cases h1 : Heap.eqF h f x y with
      | none => simp [h1] at e
      | some b1 =>
        rw [(eq_mono f).1 _ _ _ h1]
        cases b1 with
        | true => simp only [h1] at e ⊢; exact hb _ _ _ e
        | false =>
          simp only [h1] at e ⊢
          cases x with
          | var n =>
            cases hn : h n with
            | some t => simp only [hn] at e ⊢; exact ih1 _ _ _ _ _ _ _ hb e
            | none =>
              simp only [hn] at e ⊢
              cases y with
              | var m =>
                cases hm : h m with
                | some t => simp only [hm] at e ⊢; exact ih1 _ _ _ _ _ _ _ hb e
                | none => simp only [hm] at e ⊢; exact ih2 _ _ _ _ _ _ _ hb e
              | con c => exact ih2 _ _ _ _ _ _ _ hb e
              | app bs => exact ih2 _ _ _ _ _ _ _ hb e
          | con c =>
            cases y with
            | var m => exact ih1 _ _ _ _ _ _ _ hb e
            | con c' => exact e
            | app bs => exact e
          | app as =>
            cases y with
            | var m => exact ih1 _ _ _ _ _ _ _ hb e
            | con c' => exact e
            | app bs =>
              simp only at e ⊢
              split at e
              · rename_i hl; rw [if_pos hl]; exact ih3 _ _ _ _ _ _ _ hb e
              · rename_i hl; rw [if_neg hl]; exact e
    · rw [bindF] at e ⊢
      cases h1 : Heap.occursF h f n y with
      | none => simp [h1] at e
      | some b1 =>
        rw [(occurs_mono f).1 _ _ _ h1]
        cases b1 with
        | true => simp only [h1] at e ⊢; exact e
        | false =>
          simp only [h1] at e ⊢
          cases h2 : b (h.upd n (some y)) s with
          | none => simp [h2] at e
          | some q => rw [hb _ _ _ h2]; simpa [h2] using e
    · cases xs with
      | nil =>
        cases ys with
        | nil => rw [unifyNF] at e ⊢; exact hb _ _ _ e
        | cons y ys => simpa [unifyNF] using e
      | cons x xs =>
        cases ys with
        | nil => simpa [unifyNF] using e
        | cons y ys =>
          rw [unifyNF] at e ⊢
          refine ih1 _ _ _ _ _ _ _ ?_ e
          intro h s r e; exact ih3 _ _ _ _ _ _ _ hb e

theorem unify_mono_le {S : Type} {f g : Nat} (hfg : f ≤ g) {x y : Tm} {b : Body S} {h s r}
    (e : unifyF f x y b h s = some r) : unifyF g x y b h s = some r := by
  induction hfg with
  | refl => exact e
  | step _ ih => exact (unify_mono _).1 _ _ _ _ _ _ _ (fun _ _ _ e => e) ih

/-- Any terminating run is the one described by `Spec`. -/
theorem unify_run {h : Heap} (hg : Good h) (x y : Tm) : ∃ r, Spec h x y r ∧
    ∀ {S : Type} (body : Body S) f s res, unifyF f x y body h s = some res → run r body h s = some res := by
  obtain ⟨r, hs, N, hN⟩ := unify_result hg x y
  refine ⟨r, hs, fun body f s res e => ?_⟩
  rw [← hN (max f N) (le_max_right _ _)]
  exact unify_mono_le (le_max_left _ _) e

/-- The log of a terminating run of a logged body. -/
theorem logged_run {h : Heap} (hg : Good h) (x y : Tm) : ∃ r, Spec h x y r ∧
    ∀ {S : Type} (body : Body S) f s h' s' l sig,
      unifyF f x y (logged body) h (s, []) = some (h', (s', l), sig) →
      l = (r.map (bindAll h)).toList := by
  obtain ⟨r, hs, hr⟩ := unify_run hg x y
  refine ⟨r, hs, fun body f s h' s' l sig e => ?_⟩
  have := hr _ _ _ _ e
  cases r with
  | none => simp only [run, Option.some.injEq, Prod.mk.injEq] at this; simp [← this.2.1.2]
  | some bs =>
    simp only [run, logged] at this
    cases hb : body (bindAll h bs) s with
    | none => simp [hb] at this
    | some q =>
      obtain ⟨h1, s1, sig1⟩ := q
      simp only [hb, Option.some.injEq, Prod.mk.injEq] at this
      simp [← this.2.1.2]

/-! ### Property C01 -/

/-- Whatever the loop body does, every store it is entered with makes `x` and `y` denote one tree. -/
theorem C01_sound {h : Heap} (hac : Acyclic h) {x y : Tm} {S : Type} {body : Body S} {f s h' s' l sig}
    (e : unifyF f x y (logged body) h (s, []) = some (h', (s', l), sig)) :
    ∀ hb ∈ l, ∃ t, Resolves hb x t ∧ Resolves hb y t := by
  obtain ⟨r, hs, hr⟩ := logged_run (good_iff_acyclic.2 hac) x y
  rw [hr _ _ _ _ _ _ _ e]
  intro hb hm
  cases hs with
  | fail _ => simp at hm
  | ok bs g1 s1 _ _ _ =>
    simp at hm; subst hm
    obtain ⟨f1, e1⟩ := g1.deref x
    obtain ⟨f2, e2⟩ := g1.deref y
    have heq := ((s1 _).1 g1.respects_res).2
    exact ⟨_, deref_resolves e1, by rw [heq]; exact deref_resolves e2⟩

/-- The two sides of `unifyN` are made equal elementwise (rule heads against items, subgoal lists). -/
theorem C01_soundN {h : Heap} (hac : Acyclic h) {xs ys : List Tm} (hl : xs.length = ys.length) {S : Type}
    (body : Body S) : ∃ N, ∀ f ≥ N, ∀ s h' s' l sig,
      unifyNF f xs ys (logged body) h (s, []) = some (h', (s', l), sig) →
      ∀ hb ∈ l, ∃ t, Resolves hb (.app xs) t ∧ Resolves hb (.app ys) t := by
  obtain ⟨r, hs, N, hN⟩ := unifyN_result (good_iff_acyclic.2 hac) xs ys hl
  refine ⟨N, fun f hf s h' s' l sig e hb hm => ?_⟩
  rw [hN f hf] at e
  cases hs with
  | fail _ => simp only [run, Option.some.injEq, Prod.mk.injEq] at e; simp [← e.2.1.2] at hm
  | ok bs g1 s1 _ _ _ =>
    have : hb = bindAll h bs := by
      simp only [run, logged] at e
      cases hb' : body (bindAll h bs) s with
      | none => simp [hb'] at e
      | some q =>
        obtain ⟨h1, s1, sig1⟩ := q
        simp only [hb', Option.some.injEq, Prod.mk.injEq] at e
        rw [← e.2.1.2] at hm; simpa using hm
    subst this
    obtain ⟨f1, e1⟩ := g1.deref (.app xs)
    obtain ⟨f2, e2⟩ := g1.deref (.app ys)
    have heq := ((s1 _).1 g1.respects_res).2
    exact ⟨_, deref_resolves e1, by rw [heq]; exact deref_resolves e2⟩

/-! ### Property C02 -/

/-- The body is entered once if a compatible common instance exists, never otherwise, and every
compatible common instance is an instance of the state the body sees. -/
theorem C02_complete {h : Heap} (hac : Acyclic h) {x y : Tm} {S : Type} {body : Body S} {f s h' s' l sig}
    (e : unifyF f x y (logged body) h (s, []) = some (h', (s', l), sig)) :
    ((∃ τ, Respects h τ ∧ x.sub τ = y.sub τ) → l.length = 1) ∧
    ((¬ ∃ τ, Respects h τ ∧ x.sub τ = y.sub τ) → l = []) ∧
    (∀ hb ∈ l, ∀ τ, Respects h τ → x.sub τ = y.sub τ →
      ∀ t t', Resolves hb t t' → t'.sub τ = t.sub τ) := by
  obtain ⟨r, hs, hr⟩ := logged_run (good_iff_acyclic.2 hac) x y
  rw [hr _ _ _ _ _ _ _ e]
  cases hs with
  | fail hf =>
    refine ⟨?_, by simp, by simp⟩
    rintro ⟨τ, h1, h2⟩; exact absurd h2 (hf τ h1)
  | ok bs g1 s1 _ _ _ =>
    refine ⟨by simp, fun H => absurd ⟨_, (s1 _).1 g1.respects_res⟩ H, ?_⟩
    intro hb hm τ h1 h2 t t' hr
    simp at hm; subst hm
    obtain ⟨f, ef⟩ := hr.deref
    rw [deref_eq_sub ef]
    exact g1.sub_res ((s1 τ).2 ⟨h1, h2⟩) t

/-- `unifies` decides the existence of a common instance. -/
theorem C02_unifies {h : Heap} (hac : Acyclic h) {x y : Tm} {f b} (e : unifiesF f x y h = some b) :
    b = true ↔ ∃ τ, Respects h τ ∧ x.sub τ = y.sub τ := by
  obtain ⟨r, hs, hr⟩ := unify_run (good_iff_acyclic.2 hac) x y
  unfold unifiesF at e
  rw [Option.map_eq_some_iff] at e
  obtain ⟨q, e1, rfl⟩ := e
  have := hr _ _ _ _ e1
  cases hs with
  | fail hf =>
    simp only [run, Option.some.injEq] at this; subst this
    simp; intro τ h1 h2; exact hf τ h1 h2
  | ok bs g1 s1 _ _ _ =>
    simp only [run, Option.some.injEq] at this; subst this
    simp; exact ⟨_, (s1 _).1 g1.respects_res⟩

/-! ### Property C03 -/

/-- Every way of leaving the loop restores the store, for every store (cyclic ones included):
a loop over `unify` is itself a body that restores, so nesting is covered. -/
theorem restores_all {S : Type} : ∀ f,
    (∀ x y (b : Body S), Restores b → Restores (unifyF f x y b)) ∧
    (∀ n y (b : Body S), Restores b → Restores (bindF f n y b)) ∧
    (∀ xs ys (b : Body S), Restores b → Restores (unifyNF f xs ys b)) := by
  intro f
  induction f with
  | zero =>
    exact ⟨fun x y b _ h s h' s' sig e => by simp [unifyF] at e, fun x y b _ h s h' s' sig e => by simp [bindF] at e,
      fun x y b _ h s h' s' sig e => by simp [unifyNF] at e⟩
  | succ f ih =>
    obtain ⟨ih1, ih2, ih3⟩ := ih
    refine ⟨fun x y b hb h s h' s' sig e => ?_, fun n y b hb h s h' s' sig e => ?_, fun xs ys b hb h s h' s' sig e => ?_⟩
    · rw [unifyF.eq_def] at e; simp only at e
      cases h1 : Heap.eqF h f x y with
      | none => simp [h1] at e
      | some b1 =>
        cases b1 with
        | true => simp only [h1] at e; exact hb _ _ _ _ _ e
        | false =>
          simp only [h1] at e
          cases x with
          | var n =>
            cases hn : h n with
            | some t => simp only [hn] at e; exact ih1 _ _ _ hb _ _ _ _ _ e
            | none =>
              simp only [hn] at e
              cases y with
              | var m =>
                cases hm : h m with
                | some t => simp only [hm] at e; exact ih1 _ _ _ hb _ _ _ _ _ e
                | none => simp only [hm] at e; exact ih2 _ _ _ hb _ _ _ _ _ e
              | con c => exact ih2 _ _ _ hb _ _ _ _ _ e
              | app bs => exact ih2 _ _ _ hb _ _ _ _ _ e
          | con c =>
            cases y with
            | var m => exact ih1 _ _ _ hb _ _ _ _ _ e
            | con c' => simp at e; exact e.1.symm
            | app bs => simp at e; exact e.1.symm
          | app as =>
            cases y with
            | var m => exact ih1 _ _ _ hb _ _ _ _ _ e
            | con c' => simp at e; exact e.1.symm
            | app bs =>
              simp only at e
              split at e
              · exact ih3 _ _ _ hb _ _ _ _ _ e
              · simp at e; exact e.1.symm
    · rw [bindF] at e
      cases h1 : Heap.occursF h f n y with
      | none => simp [h1] at e
      | some b1 =>
        cases b1 with
        | true => simp [h1] at e; exact e.1.symm
        | false =>
          simp only [h1] at e
          cases h2 : b (h.upd n (some y)) s with
          | none => simp [h2] at e
          | some q =>
            obtain ⟨hq, sq, gq⟩ := q
            simp only [h2, Option.some.injEq, Prod.mk.injEq] at e
            have := hb _ _ _ _ _ h2
            subst this
            rw [← e.1]
            funext k
            by_cases hk : k = n
            · subst hk; simp
            · simp [upd_ne _ _ hk]
    · cases xs with
      | nil =>
        cases ys with
        | nil => rw [unifyNF] at e; exact hb _ _ _ _ _ e
        | cons y ys => simp [unifyNF] at e; exact e.1.symm
      | cons x xs =>
        cases ys with
        | nil => simp [unifyNF] at e; exact e.1.symm
        | cons y ys =>
          rw [unifyNF] at e
          exact ih1 _ _ _ (fun h s h' s' sig e => ih3 _ _ _ hb _ _ _ _ _ e) _ _ _ _ _ e

theorem C03_no_trace {S : Type} (f : Nat) (x y : Tm) {body : Body S} (hb : Restores body) :
    Restores (unifyF f x y body) := (restores_all f).1 x y body hb

theorem C03_no_traceN {S : Type} (f : Nat) (xs ys : List Tm) {body : Body S} (hb : Restores body) :
    Restores (unifyNF f xs ys body) := (restores_all f).2.2 xs ys body hb

/-- Wrap a body so that a counter counts how often it ran; the body may do anything else. -/
def counted {S : Type} (body : Body S) : Body (S × Nat) := fun h s =>
  match body h s.1 with
  | none => none
  | some (h', s', sig) => some (h', (s', s.2 + 1), sig)

def AtMostOnce {S : Type} (b : Body (S × Nat)) : Prop :=
  ∀ h s k h' s' k' sig, b h (s, k) = some (h', (s', k'), sig) → k' = k ∨ k' = k + 1

theorem once_all {S : Type} : ∀ f,
    (∀ x y (b : Body (S × Nat)), AtMostOnce b → AtMostOnce (unifyF f x y b)) ∧
    (∀ n y (b : Body (S × Nat)), AtMostOnce b → AtMostOnce (bindF f n y b)) ∧
    (∀ xs ys (b : Body (S × Nat)), AtMostOnce b → AtMostOnce (unifyNF f xs ys b)) := by
  intro f
  induction f with
  | zero =>
    exact ⟨fun x y b _ h s k h' s' k' sig e => by simp [unifyF] at e, fun x y b _ h s k h' s' k' sig e => by simp [bindF] at e,
      fun x y b _ h s k h' s' k' sig e => by simp [unifyNF] at e⟩
  | succ f ih =>
    obtain ⟨ih1, ih2, ih3⟩ := ih
    refine ⟨fun x y b hb h s k h' s' k' sig e => ?_, fun n y b hb h s k h' s' k' sig e => ?_,
      fun xs ys b hb h s k h' s' k' sig e => ?_⟩
    · rw [unifyF.eq_def] at e; simp only at e
      cases h1 : Heap.eqF h f x y with
      | none => simp [h1] at e
      | some b1 =>
        cases b1 with
        | true => simp only [h1] at e; exact hb _ _ _ _ _ _ _ e
        | false =>
          simp only [h1] at e
          cases x with
          | var n =>
            cases hn : h n with
            | some t => simp only [hn] at e; exact ih1 _ _ _ hb _ _ _ _ _ _ _ e
            | none =>
              simp only [hn] at e
              cases y with
              | var m =>
                cases hm : h m with
                | some t => simp only [hm] at e; exact ih1 _ _ _ hb _ _ _ _ _ _ _ e
                | none => simp only [hm] at e; exact ih2 _ _ _ hb _ _ _ _ _ _ _ e
              | con c => exact ih2 _ _ _ hb _ _ _ _ _ _ _ e
              | app bs => exact ih2 _ _ _ hb _ _ _ _ _ _ _ e
          | con c =>
            cases y with
            | var m => exact ih1 _ _ _ hb _ _ _ _ _ _ _ e
            | con c' => simp at e; exact .inl e.2.1.2.symm
            | app bs => simp at e; exact .inl e.2.1.2.symm
          | app as =>
            cases y with
            | var m => exact ih1 _ _ _ hb _ _ _ _ _ _ _ e
            | con c' => simp at e; exact .inl e.2.1.2.symm
            | app bs =>
              simp only at e
              split at e
              · exact ih3 _ _ _ hb _ _ _ _ _ _ _ e
              · simp at e; exact .inl e.2.1.2.symm
    · rw [bindF] at e
      cases h1 : Heap.occursF h f n y with
      | none => simp [h1] at e
      | some b1 =>
        cases b1 with
        | true => simp [h1] at e; exact .inl e.2.1.2.symm
        | false =>
          simp only [h1] at e
          cases h2 : b (h.upd n (some y)) (s, k) with
          | none => simp [h2] at e
          | some q =>
            obtain ⟨hq, ⟨sq, kq⟩, gq⟩ := q
            simp only [h2, Option.some.injEq, Prod.mk.injEq] at e
            have := hb _ _ _ _ _ _ _ h2
            rw [e.2.1.2] at this; exact this
    · cases xs with
      | nil =>
        cases ys with
        | nil => rw [unifyNF] at e; exact hb _ _ _ _ _ _ _ e
        | cons y ys => simp [unifyNF] at e; exact .inl e.2.1.2.symm
      | cons x xs =>
        cases ys with
        | nil => simp [unifyNF] at e; exact .inl e.2.1.2.symm
        | cons y ys =>
          rw [unifyNF] at e
          exact ih1 _ _ _ (fun h s k h' s' k' sig e => ih3 _ _ _ hb _ _ _ _ _ _ _ e) _ _ _ _ _ _ _ e

/-- The loop body runs at most once, for every store and every body. -/
theorem C03_once {S : Type} (f : Nat) (x y : Tm) (body : Body S) {h s h' s' k sig}
    (e : unifyF f x y (counted body) h (s, 0) = some (h', (s', k), sig)) : k ≤ 1 := by
  have : AtMostOnce (counted body) := by
    intro h s k h' s' k' sig e
    simp only [counted] at e
    cases hb : body h s with
    | none => simp [hb] at e
    | some q => obtain ⟨_, _, _⟩ := q; simp [hb] at e; exact .inr e.2.1.2.symm
  rcases (once_all f).1 x y _ this _ _ _ _ _ _ _ e with h1 | h1 <;> omega

/-- The loop ends the way its body ended (an exception or `break` is not swallowed), and if the body did
not run then nothing happened. -/
theorem C03_signal {h : Heap} (hac : Acyclic h) {x y : Tm} {S : Type} {body : Body S} {f s h' s' sig}
    (e : unifyF f x y body h s = some (h', s', sig)) :
    (¬ (∃ τ, Respects h τ ∧ x.sub τ = y.sub τ) ∧ h' = h ∧ s' = s ∧ sig = .done) ∨
    ∃ h1 h2, body h1 s = some (h2, s', sig) := by
  obtain ⟨r, hs, hr⟩ := unify_run (good_iff_acyclic.2 hac) x y
  have := hr _ _ _ _ e
  cases hs with
  | fail hf =>
    simp only [run, Option.some.injEq, Prod.mk.injEq] at this
    exact .inl ⟨fun ⟨τ, h1, h2⟩ => hf τ h1 h2, this.1.symm, this.2.1.symm, this.2.2.symm⟩
  | ok bs g1 s1 _ _ _ =>
    simp only [run] at this
    cases hb : body (bindAll h bs) s with
    | none => simp [hb] at this
    | some q =>
      obtain ⟨h2, s2, sig2⟩ := q
      simp only [hb, Option.some.injEq, Prod.mk.injEq] at this
      exact .inr ⟨_, h2, by rw [hb, this.2.1, this.2.2]⟩

/-! ### Property C04 -/

/-- With enough fuel the loop ends, provided the body ends on the (acyclic) stores it is given; and
those stores are acyclic. -/
theorem C04_terminates {h : Heap} (hac : Acyclic h) (x y : Tm) : ∃ N, ∀ f ≥ N, ∀ (S : Type) (body : Body S) s,
    (∀ h s, Acyclic h → body h s ≠ none) → unifyF f x y body h s ≠ none := by
  obtain ⟨r, hs, N, hN⟩ := unify_result (good_iff_acyclic.2 hac) x y
  refine ⟨N, fun f hf S body s hb => ?_⟩
  rw [hN f hf]
  cases hs with
  | fail _ => simp [run]
  | ok bs g1 _ _ _ _ =>
    simp only [run]
    cases h1 : body (bindAll h bs) s with
    | none => exact absurd h1 (hb _ _ (good_iff_acyclic.1 g1))
    | some q => simp

theorem C04_acyclic {h : Heap} (hac : Acyclic h) {x y : Tm} {S : Type} {body : Body S} {f s h' s' l sig}
    (e : unifyF f x y (logged body) h (s, []) = some (h', (s', l), sig)) : ∀ hb ∈ l, Acyclic hb := by
  obtain ⟨r, hs, hr⟩ := logged_run (good_iff_acyclic.2 hac) x y
  rw [hr _ _ _ _ _ _ _ e]
  intro hb hm
  cases hs with
  | fail _ => simp at hm
  | ok bs g1 s1 _ _ _ => simp at hm; subst hm; exact good_iff_acyclic.1 g1

/-- On an acyclic store `deref`, `==`, the occurs check and `is_ground` terminate with the right answer. -/
theorem C04_queries {h : Heap} (hac : Acyclic h) (x y : Tm) :
    ∃ x' y', Resolves h x x' ∧ Resolves h y y' ∧ ∃ N, ∀ f ≥ N,
      derefF h f x = some x' ∧ Heap.eqF h f x y = some (decide (x' = y')) ∧
      groundF h f x = some (decide (vars x' = ∅)) ∧
      ∀ v, h v = none → ∃ M, ∀ g ≥ M, Heap.occursF h g v x = some (decide (v ∈ vars x')) := by
  have hg := good_iff_acyclic.2 hac
  obtain ⟨f1, e1⟩ := hg.deref x
  obtain ⟨f2, e2⟩ := hg.deref y
  refine ⟨_, _, deref_resolves e1, deref_resolves e2, ?_⟩
  obtain ⟨N, hN⟩ := ((hg.evt_deref x).and (hg.eqF x y)).and (groundF_evt _ _ _ e1)
  exact ⟨N, fun f hf => ⟨(hN f hf).1.1, (hN f hf).1.2, (hN f hf).2, fun v hv => hg.occursF hv x⟩⟩

/-- Resolution is functional, so "denote the same tree" means what it says. -/
theorem resolves_unique {h : Heap} {t t1 t2 : Tm} (h1 : Resolves h t t1) (h2 : Resolves h t t2) : t1 = t2 := by
  obtain ⟨f, e⟩ := h1.deref
  obtain ⟨g, e'⟩ := h2.deref
  exact deref_unique e e'

/-! ### Concrete cases -/

section Examples
private def X : Tm := .var 0
private def Y : Tm := .var 1
private def a : Tm := .con (.str "a")
private def fn (as : List Tm) : Tm := .app (.con (.str "f") :: as)

/-- the empty store is acyclic -/
theorem acyclic_empty : Acyclic (fun _ => none) := ⟨fun n => ⟨n, by rintro m ⟨t, ht, _⟩; simp at ht⟩⟩

-- f(X, g(Y)) against f(Y, X): X = Y, then Y = g(Y) fails the occurs check; the body never runs
example : (unifyF 50 (fn [X, fn [Y]]) (fn [Y, X]) (logged (S := Unit) fun h s => some (h, s, .done))
    (fun _ => none) ((), [])).map (·.2.1.2.length) = some 0 := by rfl
-- f(X, Y) against f(Y, a) succeeds once, both bound to a; X was already bound to Y before
example : (unifyF 50 (fn [X, Y]) (fn [Y, a]) (logged (S := Unit) fun h s => some (h, s, .exc 3))
    (upd (fun _ => none) 0 (some Y)) ((), [])).map (fun r => (r.2.1.2.map fun h => (h 0, h 1), r.2.2))
    = some ([(some Y, some a)], .exc 3) := by rfl
example : Acyclic (upd (fun _ => none) 0 (some Y)) := by
  rw [← good_iff_acyclic]
  intro n
  by_cases hn : n = 0
  · subst hn; exact ⟨2, Y, rfl⟩
  · exact ⟨1, .var n, by simp [derefF, upd, hn]⟩
example : Restores (S := Unit) (fun h s => some (h, s, .exc 3)) := by
  intro h s h' s' sig e; simp at e; exact e.1.symm
end Examples

end Heap
end Verif
