/-
Properties C23, C24, C29 and C47: the ground agenda solver.
-/
import Verif.Solver
import Verif.ChartThm
import Verif.UnifyThm
import Mathlib.Algebra.BigOperators.Finprod
import Mathlib.Data.Set.Finite.Lattice
import Mathlib.Data.Set.Finite.List

set_option linter.unusedSectionVars false
set_option linter.unusedSimpArgs false

namespace Verif
open Tm Heap

namespace Solver
variable {K : Type}

/-! ### Specification -/

section Spec
variable [Semiring K]

/-- the value of a body element under a substitution, items having the values `v` -/
def litVal (v : Tm → K) (θ : Nat → Tm) : BLit K → K
  | .val k => k
  | .sub t => v (t.sub θ)
  | .eq x y => if x.sub θ = y.sub θ then 1 else 0
  | .cmp o x y => if o (x.sub θ) (y.sub θ) = true then 1 else 0

/-- variables of a body element, a rule -/
def litVars : BLit K → Finset Nat
  | .val _ => ∅
  | .sub t => vars t
  | .eq x y => vars x ∪ vars y
  | .cmp _ x y => vars x ∪ vars y

def InBody (r : SRule K) (n : Nat) : Prop := ∃ z ∈ r.body, n ∈ litVars z

def InRule (r : SRule K) (n : Nat) : Prop := n ∈ vars r.head ∨ InBody r n

/-- the ground substitutions of the variables of a rule -/
def GSub (r : SRule K) : Set (Nat → Tm) :=
  {θ | (∀ n, InRule r n → Ground (θ n)) ∧ ∀ n, ¬ InRule r n → θ n = .var n}

/-- the product of the values of the body of an instance -/
def instVal (v : Tm → K) (b : List (BLit K)) (θ : Nat → Tm) : K := (b.map (litVal v θ)).prod

open Classical in
/-- what one instance of the rule contributes to item `x` -/
noncomputable def instAt (r : SRule K) (v : Tm → K) (x : Tm) (θ : Nat → Tm) : K :=
  if θ ∈ GSub r ∧ r.head.sub θ = x then instVal v r.body θ else 0

/-- what a rule contributes to item `x`: the sum over all its ground instances with head `x` -/
noncomputable def contrib (r : SRule K) (v : Tm → K) (x : Tm) : K := ∑ᶠ θ, instAt r v x θ

/-- the right-hand side of the equation for item `x` -/
noncomputable def rhs (rules : List (SRule K)) (v : Tm → K) (x : Tm) : K := (rules.map fun r => contrib r v x).sum

end Spec

/-- variables bound by evaluating a body -/
inductive Bnd (b : List (BLit K)) : Nat → Prop
  | sub {t n} : BLit.sub t ∈ b → n ∈ vars t → Bnd b n
  | eqr {x y n} : BLit.eq x y ∈ b → (∀ m ∈ vars x, Bnd b m) → n ∈ vars y → Bnd b n
  | eql {x y n} : BLit.eq x y ∈ b → (∀ m ∈ vars y, Bnd b m) → n ∈ vars x → Bnd b n

/-- a rule the solver can handle: each variable is bound by the body; subgoals have a constant functor -/
structure Safe (r : SRule K) : Prop where
  bnd : ∀ n, InRule r n → Bnd r.body n
  fn : ∀ t, BLit.sub t ∈ r.body → ∃ c as, t = .app (.con c :: as)

/-- the value of an item in a chart -/
def value [Zero K] (d : Dict Tm K) (x : Tm) : K := (Dict.get d x).getD 0

/-! ### Store lemmas -/

theorem ground_mono {h : Heap} : ∀ f, (∀ x b, groundF h f x = some b → groundF h (f + 1) x = some b) ∧
    (∀ xs b, groundLF h f xs = some b → groundLF h (f + 1) xs = some b) := by
  intro f
  induction f with
  | zero => exact ⟨by simp [groundF], by simp [groundLF]⟩
  | succ f ih =>
    obtain ⟨i1, i2⟩ := ih
    constructor
    · intro x b e
      cases x with
      | var n =>
        rw [groundF] at e ⊢
        cases hn : h n with
        | none => simpa [hn] using e
        | some t => simp only [hn] at e ⊢; exact i1 _ _ e
      | con c => simpa [groundF] using e
      | app as => rw [groundF] at e ⊢; exact i2 _ _ e
    · intro xs b e
      cases xs with
      | nil => simpa [groundLF] using e
      | cons a as =>
        rw [groundLF] at e ⊢
        cases ha : groundF h f a with
        | none => simp [ha] at e
        | some c =>
          rw [i1 _ _ ha]
          rw [ha] at e
          cases c with
          | false => exact e
          | true => exact i2 _ _ e

theorem ground_mono_le {h : Heap} {f g : Nat} (hfg : f ≤ g) {x : Tm} {b : Bool} (e : groundF h f x = some b) :
    groundF h g x = some b := by
  induction hfg with
  | refl => exact e
  | step _ ih => exact (ground_mono _).1 _ _ ih

theorem ground_val {h : Heap} (hg : Good h) {f : Nat} {x : Tm} {b : Bool} (e : groundF h f x = some b) :
    b = true ↔ Ground (x.sub (res h)) := by
  obtain ⟨f1, e1⟩ := hg.deref x
  obtain ⟨N, hN⟩ := groundF_evt _ _ _ e1
  have := ground_mono_le (le_max_left f N) e
  rw [hN _ (le_max_right f N)] at this
  cases this
  simp [Ground]

theorem eq_mono_le {h : Heap} {f g : Nat} (hfg : f ≤ g) {x y : Tm} {b : Bool} (e : Heap.eqF h f x y = some b) :
    Heap.eqF h g x y = some b := by
  induction hfg with
  | refl => exact e
  | step _ ih => exact (eq_mono _).1 _ _ _ ih

theorem eq_val {h : Heap} (hg : Good h) {f : Nat} {x y : Tm} {b : Bool} (e : Heap.eqF h f x y = some b) :
    b = true ↔ x.sub (res h) = y.sub (res h) := by
  obtain ⟨N, hN⟩ := hg.eqF x y
  have := eq_mono_le (le_max_left f N) e
  rw [hN _ (le_max_right f N)] at this
  cases this
  simp

theorem good_noHeap : Good noHeap := good_iff_acyclic.2 acyclic_empty

theorem respects_noHeap (τ : Nat → Tm) : Respects noHeap τ := by intro n t h; simp [noHeap] at h

/-- a term that is ground under the store has the same value under every substitution respecting it -/
theorem sub_eq_of_ground {h : Heap} (hg : Good h) {x : Tm} (hx : Ground (x.sub (res h))) {τ : Nat → Tm}
    (hτ : Respects h τ) : x.sub τ = x.sub (res h) := by
  have := hg.sub_res hτ x
  rw [Chart.sub_ground hx] at this
  exact this.symm

/-! ### Running a generator to the end -/

/-- the consumer `k` is run at the given yields, in order, and always falls through -/
inductive RunCalls {α S : Type} (k : α → Body S) : List (α × Heap) → S → S → Prop
  | nil (s) : RunCalls k [] s s
  | cons {a h L s s1 s2} : k a h s = some (h, s1, .done) → RunCalls k L s1 s2 → RunCalls k ((a, h) :: L) s s2

theorem RunCalls.append {α S : Type} {k : α → Body S} {L L' : List (α × Heap)} {s s1 s2 : S}
    (h1 : RunCalls k L s s1) (h2 : RunCalls k L' s1 s2) : RunCalls k (L ++ L') s s2 := by
  induction h1 with
  | nil => exact h2
  | cons e _ ih => exact .cons e (ih h2)

theorem unify_done {S : Type} {f : Nat} {x y : Tm} {h : Heap} (hg : Good h) {body : Body S} (hb : Restores body) {s h' s'}
    (e : unifyF f x y body h s = some (h', s', .done)) :
    h' = h ∧ (((∀ τ, Respects h τ → x.sub τ ≠ y.sub τ) ∧ s' = s) ∨
      ∃ h1, Good h1 ∧ (∀ τ, Respects h1 τ ↔ Respects h τ ∧ x.sub τ = y.sub τ) ∧ body h1 s = some (h1, s', .done)) := by
  refine ⟨C03_no_trace f x y hb _ _ _ _ _ e, ?_⟩
  obtain ⟨r, hs, hr⟩ := unify_run hg x y
  have e := hr _ _ _ _ e
  cases hs with
  | fail hf =>
    simp only [run, Option.some.injEq, Prod.mk.injEq] at e
    exact .inl ⟨hf, e.2.1.symm⟩
  | ok bs g1 g2 g3 g4 g5 =>
    simp only [run] at e
    cases hq : body (bindAll h bs) s with
    | none => simp [hq] at e
    | some q =>
      obtain ⟨h1, s1, sig⟩ := q
      simp only [hq, Option.some.injEq, Prod.mk.injEq] at e
      obtain ⟨_, rfl, rfl⟩ := e
      have := hb _ _ _ _ _ hq
      subst this
      exact .inr ⟨bindAll h bs, g1, g2, hq⟩

theorem forEach_restores {α S : Type} {b : α → Body S} (hb : ∀ a, Restores (b a)) : ∀ l, Restores (forEach l b) := by
  intro l
  induction l with
  | nil => intro h s h' s' sig e; simp [forEach] at e; exact e.1.symm
  | cons a l ih =>
    intro h s h' s' sig e
    simp only [forEach] at e
    cases hq : b a h s with
    | none => simp [hq] at e
    | some q =>
      obtain ⟨h1, s1, sg⟩ := q
      have := hb a _ _ _ _ _ hq
      subst this
      simp only [hq] at e
      cases sg with
      | done => exact ih _ _ _ _ _ e
      | brk => simp at e; exact e.1.symm
      | exc n => simp at e; exact e.1.symm

theorem forEach_cons_done {α S : Type} {b : α → Body S} {a : α} {l : List α} {h : Heap} {s : S} {h' s'}
    (e : forEach (a :: l) b h s = some (h', s', .done)) :
    ∃ h1 s1, b a h s = some (h1, s1, .done) ∧ forEach l b h1 s1 = some (h', s', .done) := by
  simp only [forEach] at e
  cases hq : b a h s with
  | none => simp [hq] at e
  | some q =>
    obtain ⟨h1, s1, sg⟩ := q
    simp only [hq] at e
    cases sg with
    | done => exact ⟨h1, s1, rfl, e⟩
    | brk => simp at e
    | exc n => simp at e

theorem joinF_restores {S : Type} [One K] {f : Nat} {chart : Dict Tm K} {cand : Tm → List Tm} {k : List K → Body S}
    (hk : ∀ P, Restores (k P)) : ∀ body acc, Restores (joinF f chart cand body acc k) := by
  intro body
  induction body with
  | nil => intro acc h s h' s' sig e; exact hk _ _ _ _ _ _ e
  | cons z body ih =>
    intro acc h s h' s' sig e
    cases z with
    | val c => exact ih _ _ _ _ _ _ e
    | eq x y => exact C03_no_trace _ _ _ (ih _) _ _ _ _ _ e
    | cmp o x y =>
      simp only [joinF] at e
      split at e
      · split at e
        · exact ih _ _ _ _ _ _ e
        · simp at e; exact e.1.symm
      · simp at e; exact e.1.symm
      · simp at e
    | sub q =>
      simp only [joinF] at e
      split at e
      · simp at e
      · refine forEach_restores (fun x => C03_no_trace _ _ _ ?_) _ _ _ _ _ _ e
        intro h s h' s' sig e
        simp only at e
        split at e
        · simp at e
        · split at e
          · simp at e; exact e.1.symm
          · exact ih _ _ _ _ _ _ e
      · simp at e; exact e.1.symm

/-! ### What `join` enumerates -/

/-- the element `z` of a body holds under `τ` with value `v` -/
def LitSat [One K] (chart : Dict Tm K) (τ : Nat → Tm) : BLit K → K → Prop
  | .val k, v => v = k
  | .sub t, v => Dict.get chart (t.sub τ) = some v
  | .eq x y, v => x.sub τ = y.sub τ ∧ v = 1
  | .cmp o x y, v => o (x.sub τ) (y.sub τ) = true ∧ v = 1

/-- the yields of `join(body)` from store `h`: the factors and the store at each yield -/
structure Yields [One K] (chart : Dict Tm K) (h : Heap) (body : List (BLit K)) (L : List (List K × Heap)) : Prop where
  good : ∀ p ∈ L, Good p.2
  sound : ∀ p ∈ L, ∀ τ, Respects p.2 τ → Respects h τ ∧ List.Forall₂ (LitSat chart τ) body p.1
  complete : ∀ τ vs, Respects h τ → List.Forall₂ (LitSat chart τ) body vs → ∃ p ∈ L, Respects p.2 τ ∧ p.1 = vs
  disjoint : L.Pairwise fun p p' => ∀ τ τ', (∀ z ∈ body, ∀ n ∈ litVars z, τ n = τ' n) →
    Respects p.2 τ → Respects p'.2 τ' → False

theorem RunCalls.map {α β S : Type} {k : α → Body S} {g : β → α} {L : List (β × Heap)} {s s' : S}
    (h : RunCalls (fun b => k (g b)) L s s') : RunCalls k (L.map fun p => (g p.1, p.2)) s s' := by
  induction h with
  | nil => exact .nil _
  | cons e _ ih => exact .cons e ih

theorem LitSat.unique [One K] {chart : Dict Tm K} {τ : Nat → Tm} {z : BLit K} {v v' : K} (h : LitSat chart τ z v)
    (h' : LitSat chart τ z v') : v = v' := by
  cases z with
  | val k => exact h.trans h'.symm
  | sub t => simp only [LitSat] at h h'; rw [h] at h'; exact Option.some.inj h'
  | eq x y => exact h.2.trans h'.2.symm
  | cmp o x y => exact h.2.trans h'.2.symm

theorem join_spec {S : Type} [One K] {f : Nat} {chart : Dict Tm K} {cand : Tm → List Tm} {k : List K → Body S}
    (hk : ∀ P, Restores (k P)) (hch : ∀ x ∈ Dict.keys chart, Ground x)
    (hc : ∀ c as, (cand (.app (.con c :: as))).Nodup ∧ (∀ x ∈ cand (.app (.con c :: as)), x ∈ Dict.keys chart) ∧
      ∀ x ∈ Dict.keys chart, InstanceOf x (.app (.con c :: as)) → x ∈ cand (.app (.con c :: as))) :
    ∀ body, (∀ t, BLit.sub t ∈ body → ∃ c as, t = .app (.con c :: as)) → ∀ acc h s h' s', Good h →
      joinF f chart cand body acc k h s = some (h', s', .done) →
      ∃ L, Yields chart h body L ∧ RunCalls (fun vs => k (acc ++ vs)) L s s' := by
  intro body
  induction body with
  | nil =>
    intro _ acc h s h' s' hg e
    simp only [joinF] at e
    have := hk _ _ _ _ _ _ e
    subst this
    refine ⟨[([], h')], ⟨by simp [hg], ?_, ?_, by simp⟩, .cons (by simpa using e) (.nil _)⟩
    · rintro p hp τ hτ
      simp only [List.mem_singleton] at hp; subst hp
      exact ⟨hτ, .nil⟩
    · intro τ vs hτ hs
      cases hs
      exact ⟨([], h'), by simp, hτ, rfl⟩
  | cons z body ih =>
    intro hfn acc h s h' s' hg e
    have ih := ih fun t ht => hfn t (by simp [ht])
    cases z with
    | val c =>
      obtain ⟨L, hL, hr⟩ := ih _ _ _ _ _ hg e
      refine ⟨L.map fun p => (c :: p.1, p.2), ⟨?_, ?_, ?_, ?_⟩, ?_⟩
      · simp only [List.mem_map]; rintro _ ⟨p, hp, rfl⟩; exact hL.good p hp
      · simp only [List.mem_map]; rintro _ ⟨p, hp, rfl⟩ τ hτ
        exact ⟨(hL.sound p hp τ hτ).1, .cons rfl (hL.sound p hp τ hτ).2⟩
      · intro τ vs hτ hs
        cases hs with
        | cons h1 h2 =>
          obtain ⟨p, hp, h3, rfl⟩ := hL.complete τ _ hτ h2
          refine ⟨(c :: p.1, p.2), List.mem_map.2 ⟨p, hp, rfl⟩, h3, ?_⟩
          rw [show _ = c from h1]
      · rw [List.pairwise_map]
        exact hL.disjoint.imp fun hd τ τ' hz => hd τ τ' fun z hzb => hz z (by simp [hzb])
      · exact RunCalls.map (k := fun vs => k (acc ++ vs)) (g := fun l => c :: l) (by simpa using hr)
    | eq x y =>
      simp only [joinF] at e
      obtain ⟨rfl, hu⟩ := unify_done hg (joinF_restores hk _ _) e
      rcases hu with ⟨hf, rfl⟩ | ⟨h1, g1, g2, e⟩
      · refine ⟨[], ⟨by simp, by simp, ?_, by simp⟩, .nil _⟩
        intro τ vs hτ hs
        cases hs with
        | cons h1 h2 => exact absurd h1.1 (hf τ hτ)
      · obtain ⟨L, hL, hr⟩ := ih _ _ _ _ _ g1 e
        refine ⟨L.map fun p => (1 :: p.1, p.2), ⟨?_, ?_, ?_, ?_⟩, ?_⟩
        · simp only [List.mem_map]; rintro _ ⟨p, hp, rfl⟩; exact hL.good p hp
        · simp only [List.mem_map]; rintro _ ⟨p, hp, rfl⟩ τ hτ
          obtain ⟨a1, a2⟩ := hL.sound p hp τ hτ
          exact ⟨((g2 τ).1 a1).1, .cons ⟨((g2 τ).1 a1).2, rfl⟩ a2⟩
        · intro τ vs hτ hs
          cases hs with
          | cons a1 a2 =>
            obtain ⟨p, hp, h3, rfl⟩ := hL.complete τ _ ((g2 τ).2 ⟨hτ, a1.1⟩) a2
            refine ⟨(1 :: p.1, p.2), List.mem_map.2 ⟨p, hp, rfl⟩, h3, ?_⟩
            rw [a1.2]
        · rw [List.pairwise_map]
          exact hL.disjoint.imp fun hd τ τ' hz => hd τ τ' fun z hzb => hz z (by simp [hzb])
        · exact RunCalls.map (k := fun vs => k (acc ++ vs)) (g := fun l => 1 :: l) (by simpa using hr)
    | cmp o x y =>
      simp only [joinF] at e
      split at e
      · rename_i x' y' ex ey dx dy
        have gx := (ground_val hg ex).1 rfl
        have gy := (ground_val hg ey).1 rfl
        have dx := deref_eq_sub dx
        have dy := deref_eq_sub dy
        subst dx dy
        split at e
        · rename_i ho
          obtain ⟨L, hL, hr⟩ := ih _ _ _ _ _ hg e
          refine ⟨L.map fun p => (1 :: p.1, p.2), ⟨?_, ?_, ?_, ?_⟩, ?_⟩
          · simp only [List.mem_map]; rintro _ ⟨p, hp, rfl⟩; exact hL.good p hp
          · simp only [List.mem_map]; rintro _ ⟨p, hp, rfl⟩ τ hτ
            obtain ⟨a1, a2⟩ := hL.sound p hp τ hτ
            refine ⟨a1, .cons ⟨?_, rfl⟩ a2⟩
            rw [sub_eq_of_ground hg gx a1, sub_eq_of_ground hg gy a1]; exact ho
          · intro τ vs hτ hs
            cases hs with
            | cons a1 a2 =>
              obtain ⟨p, hp, h3, rfl⟩ := hL.complete τ _ hτ a2
              refine ⟨(1 :: p.1, p.2), List.mem_map.2 ⟨p, hp, rfl⟩, h3, ?_⟩
              rw [a1.2]
          · rw [List.pairwise_map]
            exact hL.disjoint.imp fun hd τ τ' hz => hd τ τ' fun z hzb => hz z (by simp [hzb])
          · exact RunCalls.map (k := fun vs => k (acc ++ vs)) (g := fun l => 1 :: l) (by simpa using hr)
        · rename_i ho
          simp only [Option.some.injEq, Prod.mk.injEq, and_true] at e
          obtain ⟨rfl, rfl⟩ := e
          refine ⟨[], ⟨by simp, by simp, ?_, by simp⟩, .nil _⟩
          intro τ vs hτ hs
          cases hs with
          | cons a1 a2 =>
            have := a1.1
            rw [sub_eq_of_ground hg gx hτ, sub_eq_of_ground hg gy hτ] at this
            exact absurd this ho
      · simp at e
      · simp at e
    | sub q =>
      obtain ⟨c, as, rfl⟩ := hfn q (by simp)
      simp only [joinF] at e
      cases hd : derefF h f (.app (.con c :: as)) with
      | none => simp [hd] at e
      | some q' =>
        have hq' := deref_eq_sub hd
        have hq'' : q' = .app (.con c :: as.map (sub (res h))) := by rw [hq']; simp
        rw [hq''] at hd
        simp only [hd] at e
        obtain ⟨c1, c2, c3⟩ := hc c (as.map (sub (res h)))
        -- the candidates still to be tried
        have key : ∀ (xs : List Tm), xs.Nodup → (∀ x ∈ xs, x ∈ Dict.keys chart) → ∀ s,
            forEach xs (fun x => unifyF f x (.app (.con c :: as)) (fun h s =>
              match derefF h f (.app (.con c :: as)) with
              | none => none
              | some q' => match Dict.get chart q' with
                | none => some (h, s, keyError)
                | some v => joinF f chart cand body (acc ++ [v]) k h s)) h s = some (h', s', .done) →
            ∃ L, (∀ p ∈ L, Good p.2) ∧
              (∀ p ∈ L, ∀ τ, Respects p.2 τ → Respects h τ ∧ (Tm.app (.con c :: as)).sub τ ∈ xs ∧
                List.Forall₂ (LitSat chart τ) (.sub (.app (.con c :: as)) :: body) p.1) ∧
              (∀ τ vs, Respects h τ → (Tm.app (.con c :: as)).sub τ ∈ xs →
                List.Forall₂ (LitSat chart τ) (.sub (.app (.con c :: as)) :: body) vs → ∃ p ∈ L, Respects p.2 τ ∧ p.1 = vs) ∧
              (L.Pairwise fun p p' => ∀ τ τ', (∀ z ∈ (BLit.sub (.app (.con c :: as)) :: body), ∀ n ∈ litVars z, τ n = τ' n) →
                Respects p.2 τ → Respects p'.2 τ' → False) ∧
              RunCalls (fun vs => k (acc ++ vs)) L s s' := by
          intro xs
          induction xs with
          | nil =>
            intro _ _ s e
            simp only [forEach, Option.some.injEq, Prod.mk.injEq, and_true] at e
            exact ⟨[], by simp, by simp, by simp, by simp, e.2 ▸ .nil _⟩
          | cons x xs ihx =>
            intro hnd hmem s e
            obtain ⟨h1, s1, e1, e2⟩ := forEach_cons_done e
            rw [List.nodup_cons] at hnd
            have hrest : Restores (fun (h : Heap) (s : S) =>
              match derefF h f (.app (.con c :: as)) with
              | none => none
              | some q' => match Dict.get chart q' with
                | none => some (h, s, keyError)
                | some v => joinF f chart cand body (acc ++ [v]) k h s) := by
              intro h s h' s' sig e
              simp only at e
              split at e
              · simp at e
              · split at e
                · simp at e; exact e.1.symm
                · exact joinF_restores hk _ _ _ _ _ _ _ e
            obtain ⟨rfl, hu⟩ := unify_done hg hrest e1
            obtain ⟨L2, b1, b2, b3, b4, b5⟩ := ihx hnd.2 (fun y hy => hmem y (by simp [hy])) s1 e2
            have hxg : Ground x := hch x (hmem x (by simp))
            rcases hu with ⟨hf, rfl⟩ | ⟨h2, g1, g2, e3⟩
            · refine ⟨L2, b1, ?_, ?_, b4, b5⟩
              · intro p hp τ hτ
                obtain ⟨a1, a2, a3⟩ := b2 p hp τ hτ
                exact ⟨a1, List.mem_cons_of_mem _ a2, a3⟩
              · intro τ vs hτ hm hs
                rcases List.mem_cons.1 hm with hm | hm
                · have := hf τ hτ
                  rw [Chart.sub_ground hxg] at this
                  exact absurd hm.symm this
                · exact b3 τ vs hτ hm hs
            · cases hd2 : derefF h2 f (.app (.con c :: as)) with
              | none => simp [hd2] at e3
              | some q2 =>
                have hq2 := deref_eq_sub hd2
                simp only [hd2] at e3
                cases hv : Dict.get chart q2 with
                | none => simp [hv] at e3
                | some v =>
                  simp only [hv] at e3
                  have hx2 : ∀ τ, Respects h2 τ → (Tm.app (.con c :: as)).sub τ = x := fun τ hτ => by
                    rw [← ((g2 τ).1 hτ).2, Chart.sub_ground hxg]
                  have hq2x : q2 = x := by rw [hq2]; exact hx2 _ g1.respects_res
                  obtain ⟨L1, hL, hr⟩ := ih _ _ _ _ _ g1 e3
                  have hr' : RunCalls (fun vs => k (acc ++ vs)) (L1.map fun p => (v :: p.1, p.2)) s s1 :=
                    RunCalls.map (k := fun vs => k (acc ++ vs)) (g := fun l => v :: l) (by simpa using hr)
                  refine ⟨L1.map (fun p => (v :: p.1, p.2)) ++ L2, ?_, ?_, ?_, ?_, hr'.append b5⟩
                  · intro p hp
                    rcases List.mem_append.1 hp with hp | hp
                    · obtain ⟨p0, hp0, rfl⟩ := List.mem_map.1 hp
                      exact hL.good p0 hp0
                    · exact b1 p hp
                  · intro p hp τ hτ
                    rcases List.mem_append.1 hp with hp | hp
                    · obtain ⟨p0, hp0, rfl⟩ := List.mem_map.1 hp
                      obtain ⟨a1, a2⟩ := hL.sound p0 hp0 τ hτ
                      have hx := hx2 τ a1
                      refine ⟨((g2 τ).1 a1).1, by rw [hx]; exact List.mem_cons_self, .cons ?_ a2⟩
                      simp only [LitSat]
                      rw [hx, ← hq2x]; exact hv
                    · obtain ⟨a1, a2, a3⟩ := b2 p hp τ hτ
                      exact ⟨a1, List.mem_cons_of_mem _ a2, a3⟩
                  · intro τ vs hτ hm hs
                    by_cases hm' : (Tm.app (.con c :: as)).sub τ = x
                    · cases hs with
                      | cons a1 a2 =>
                        have hτ2 := (g2 τ).2 ⟨hτ, by rw [hm', Chart.sub_ground hxg]⟩
                        obtain ⟨p, hp, h3, rfl⟩ := hL.complete τ _ hτ2 a2
                        refine ⟨(v :: p.1, p.2), List.mem_append_left _ (List.mem_map.2 ⟨p, hp, rfl⟩), h3, ?_⟩
                        simp only [LitSat] at a1
                        rw [hm', ← hq2x, hv] at a1
                        rw [Option.some.inj a1]
                    · have hm : (Tm.app (.con c :: as)).sub τ ∈ xs := by
                        rcases List.mem_cons.1 hm with hm | hm
                        · exact absurd hm hm'
                        · exact hm
                      obtain ⟨p, hp, a1, a2⟩ := b3 τ vs hτ hm hs
                      exact ⟨p, List.mem_append_right _ hp, a1, a2⟩
                  · rw [List.pairwise_append]
                    refine ⟨?_, b4, ?_⟩
                    · rw [List.pairwise_map]
                      exact hL.disjoint.imp fun hd τ τ' hz => hd τ τ' fun z hzb => hz z (by simp [hzb])
                    · intro p hp p' hp' τ τ' hz hτ hτ'
                      obtain ⟨p0, hp0, rfl⟩ := List.mem_map.1 hp
                      have a1 := hx2 τ (hL.sound p0 hp0 τ hτ).1
                      have a2 := (b2 p' hp' τ' hτ').2.1
                      have : (Tm.app (.con c :: as)).sub τ = (Tm.app (.con c :: as)).sub τ' :=
                        sub_congr fun n hn => hz (.sub (.app (.con c :: as))) (by simp) n hn
                      rw [← this, a1] at a2
                      exact hnd.1 a2
        obtain ⟨L, b1, b2, b3, b4, b5⟩ := key _ c1 c2 s e
        refine ⟨L, ⟨b1, fun p hp τ hτ => ⟨(b2 p hp τ hτ).1, (b2 p hp τ hτ).2.2⟩, ?_, b4⟩, b5⟩
        intro τ vs hτ hs
        refine b3 τ vs hτ ?_ hs
        cases hs with
        | cons a1 a2 =>
          simp only [LitSat] at a1
          refine c3 _ ((Dict.mem_keys_iff_get _ _).2 ⟨_, a1⟩) ⟨τ, ?_⟩
          have := hg.sub_res hτ (.app (.con c :: as))
          rw [← this]; simp

/-! ### From yields to sums -/

section Sums
variable [Semiring K]

theorem sat_sub {chart : Dict Tm K} {τ : Nat → Tm} {b : List (BLit K)} {vs : List K}
    (h : List.Forall₂ (LitSat chart τ) b vs) : ∀ z ∈ b, ∃ v, LitSat chart τ z v := by
  induction h with
  | nil => simp
  | cons h1 _ ih =>
    intro z hz
    rcases List.mem_cons.1 hz with rfl | hz
    · exact ⟨_, h1⟩
    · exact ih z hz

theorem ground_of_mem {t : Tm} {τ : Nat → Tm} (h : Ground (t.sub τ)) {n : Nat} (hn : n ∈ vars t) : Ground (τ n) := by
  unfold Ground at *
  rw [Finset.eq_empty_iff_forall_notMem] at *
  intro x hx
  exact h x (mem_vars_sub.2 ⟨n, hn, hx⟩)

theorem ground_sub {t : Tm} {τ : Nat → Tm} (h : ∀ n ∈ vars t, Ground (τ n)) : Ground (t.sub τ) := by
  unfold Ground at *
  rw [Finset.eq_empty_iff_forall_notMem]
  intro x hx
  obtain ⟨n, hn, hx⟩ := mem_vars_sub.1 hx
  rw [h n hn] at hx; simp at hx

theorem bnd_ground {chart : Dict Tm K} (hch : ∀ x ∈ Dict.keys chart, Ground x) {τ : Nat → Tm} {b : List (BLit K)}
    (hs : ∀ z ∈ b, ∃ v, LitSat chart τ z v) {n : Nat} (h : Bnd b n) : Ground (τ n) := by
  induction h with
  | sub hz hn =>
    obtain ⟨v, hv⟩ := hs _ hz
    exact ground_of_mem (hch _ ((Dict.mem_keys_iff_get _ _).2 ⟨v, hv⟩)) hn
  | eqr hz _ hn ih =>
    obtain ⟨v, hv, _⟩ := hs _ hz
    refine ground_of_mem (t := _) ?_ hn
    rw [← hv]; exact ground_sub ih
  | eql hz _ hn ih =>
    obtain ⟨v, hv, _⟩ := hs _ hz
    refine ground_of_mem (t := _) ?_ hn
    rw [hv]; exact ground_sub ih

theorem bnd_det {chart : Dict Tm K} {τ τ' : Nat → Tm} {b : List (BLit K)}
    (hs : ∀ z ∈ b, ∃ v, LitSat chart τ z v) (hs' : ∀ z ∈ b, ∃ v, LitSat chart τ' z v)
    (ha : ∀ t, BLit.sub t ∈ b → t.sub τ = t.sub τ') {n : Nat} (h : Bnd b n) : τ n = τ' n := by
  induction h with
  | sub hz hn => exact sub_eq_on_vars (ha _ hz) _ hn
  | eqr hz _ hn ih =>
    obtain ⟨v, hv, _⟩ := hs _ hz
    obtain ⟨v', hv', _⟩ := hs' _ hz
    refine sub_eq_on_vars (t := _) ?_ _ hn
    rw [← hv, ← hv']; exact sub_congr ih
  | eql hz _ hn ih =>
    obtain ⟨v, hv, _⟩ := hs _ hz
    obtain ⟨v', hv', _⟩ := hs' _ hz
    refine sub_eq_on_vars (t := _) ?_ _ hn
    rw [hv, hv']; exact sub_congr ih

theorem litVal_sat {chart : Dict Tm K} {τ : Nat → Tm} {z : BLit K} {v : K} (h : LitSat chart τ z v) :
    litVal (value chart) τ z = v := by
  cases z with
  | val k => exact h.symm
  | sub t => simp only [LitSat] at h; simp [litVal, value, h]
  | eq x y => simp [litVal, h.1, h.2]
  | cmp o x y => simp [litVal, h.1, h.2]

theorem litVal_unsat {chart : Dict Tm K} {τ : Nat → Tm} {z : BLit K} (h : ∀ v, ¬ LitSat chart τ z v) :
    litVal (value chart) τ z = 0 := by
  cases z with
  | val k => exact absurd rfl (h k)
  | sub t =>
    simp only [LitSat] at h
    cases hg : Dict.get chart (t.sub τ) with
    | none => simp [litVal, value, hg]
    | some v => exact absurd hg (h v)
  | eq x y =>
    have : ¬ x.sub τ = y.sub τ := fun e => h 1 ⟨e, rfl⟩
    simp [litVal, this]
  | cmp o x y =>
    have : ¬ o (x.sub τ) (y.sub τ) = true := fun e => h 1 ⟨e, rfl⟩
    simp only [litVal, if_neg this]

theorem forall2_of_sat {chart : Dict Tm K} {τ : Nat → Tm} {b : List (BLit K)}
    (h : ∀ z ∈ b, ∃ v, LitSat chart τ z v) : ∃ vs, List.Forall₂ (LitSat chart τ) b vs := by
  induction b with
  | nil => exact ⟨[], .nil⟩
  | cons z b ih =>
    obtain ⟨v, hv⟩ := h z (by simp)
    obtain ⟨vs, hvs⟩ := ih fun z hz => h z (by simp [hz])
    exact ⟨v :: vs, .cons hv hvs⟩

theorem instVal_sat {chart : Dict Tm K} {τ : Nat → Tm} {b : List (BLit K)} {vs : List K}
    (h : List.Forall₂ (LitSat chart τ) b vs) : instVal (value chart) b τ = vs.prod := by
  unfold instVal
  induction h with
  | nil => rfl
  | cons h1 _ ih => simp only [List.map_cons, List.prod_cons, litVal_sat h1, ih]

/-- `LitSat` only looks at the variables of the element -/
theorem LitSat.congr {chart : Dict Tm K} {τ τ' : Nat → Tm} {z : BLit K} {v : K} (h : ∀ n ∈ litVars z, τ n = τ' n)
    (hs : LitSat chart τ z v) : LitSat chart τ' z v := by
  cases z with
  | val k => exact hs
  | sub t => simp only [LitSat] at hs ⊢; rw [← sub_congr h]; exact hs
  | eq x y =>
    simp only [LitSat, litVars, Finset.mem_union] at *
    rw [← sub_congr fun n hn => h n (.inl hn), ← sub_congr fun n hn => h n (.inr hn)]; exact hs
  | cmp o x y =>
    simp only [LitSat, litVars, Finset.mem_union] at *
    rw [← sub_congr fun n hn => h n (.inl hn), ← sub_congr fun n hn => h n (.inr hn)]; exact hs

theorem sat_congr {chart : Dict Tm K} {τ τ' : Nat → Tm} {b : List (BLit K)} {vs : List K}
    (h : ∀ z ∈ b, ∀ n ∈ litVars z, τ n = τ' n) (hs : List.Forall₂ (LitSat chart τ) b vs) :
    List.Forall₂ (LitSat chart τ') b vs := by
  induction hs with
  | nil => exact .nil
  | cons h1 _ ih =>
    exact .cons (h1.congr (h _ (by simp))) (ih fun z hz => h z (by simp [hz]))

/-- the satisfying groundings of a rule -/
def Sat (chart : Dict Tm K) (r : SRule K) : Set (Nat → Tm) :=
  {θ | θ ∈ GSub r ∧ ∀ z ∈ r.body, ∃ v, LitSat chart θ z v}

theorem finite_lists (A : Set Tm) (hA : A.Finite) : ∀ n, {l : List Tm | l.length = n ∧ ∀ x ∈ l, x ∈ A}.Finite := by
  intro n
  induction n with
  | zero => refine (Set.finite_singleton []).subset ?_; rintro l ⟨h, _⟩; simpa using h
  | succ n ih =>
    refine (Set.Finite.image2 List.cons hA ih).subset ?_
    rintro l ⟨h, hm⟩
    cases l with
    | nil => simp at h
    | cons a l => exact ⟨a, hm a (by simp), l, ⟨by simpa using h, fun x hx => hm x (by simp [hx])⟩, rfl⟩

/-- the instances of the subgoals -/
def subInsts (b : List (BLit K)) (θ : Nat → Tm) : List Tm := b.map fun z => match z with
  | .sub t => t.sub θ
  | _ => .con (.int 0)

theorem sat_finite {chart : Dict Tm K} {r : SRule K} (hr : ∀ n, InRule r n → Bnd r.body n) : (Sat chart r).Finite := by
  refine Set.Finite.of_injOn (f := subInsts r.body) (t := {l | l.length = r.body.length ∧ ∀ x ∈ l, x ∈ insert (.con (.int 0)) {x | x ∈ Dict.keys chart}})
    ?_ ?_ (finite_lists _ ?_ _)
  · rintro θ ⟨_, hθ⟩
    refine ⟨by simp [subInsts], ?_⟩
    intro x hx
    simp only [subInsts, List.mem_map] at hx
    obtain ⟨z, hz, rfl⟩ := hx
    cases z with
    | sub t =>
      obtain ⟨v, hv⟩ := hθ _ hz
      exact .inr ((Dict.mem_keys_iff_get _ _).2 ⟨v, hv⟩)
    | val k => exact .inl rfl
    | eq x y => exact .inl rfl
    | cmp o x y => exact .inl rfl
  · rintro θ ⟨g, hθ⟩ θ' ⟨g', hθ'⟩ e
    funext n
    by_cases hn : InRule r n
    · refine bnd_det hθ hθ' ?_ (hr n hn)
      intro t ht
      have := List.map_inj_left.1 e _ ht
      exact this
    · rw [g.2 n hn, g'.2 n hn]
  · exact (List.finite_toSet _).insert _

open Classical in
/-- a substitution cut down to the variables of a rule -/
noncomputable def restr (r : SRule K) (τ : Nat → Tm) : Nat → Tm := fun n => if InRule r n then τ n else .var n

theorem restr_in {r : SRule K} {τ : Nat → Tm} {n : Nat} (h : InRule r n) : restr r τ n = τ n := by simp [restr, h]

theorem restr_head {r : SRule K} {τ : Nat → Tm} : r.head.sub (restr r τ) = r.head.sub τ :=
  sub_congr fun _ hn => restr_in (.inl hn)

theorem restr_sub {r : SRule K} {τ : Nat → Tm} {t : Tm} (ht : BLit.sub t ∈ r.body) : t.sub (restr r τ) = t.sub τ :=
  sub_congr fun _ hn => restr_in (.inr ⟨_, ht, hn⟩)

theorem restr_sat {chart : Dict Tm K} {r : SRule K} {τ : Nat → Tm} {vs : List K}
    (h : List.Forall₂ (LitSat chart τ) r.body vs) : List.Forall₂ (LitSat chart (restr r τ)) r.body vs :=
  sat_congr (fun z hz _ hn => (restr_in (.inr ⟨z, hz, hn⟩)).symm) h

theorem restr_mem {chart : Dict Tm K} (hch : ∀ x ∈ Dict.keys chart, Ground x) {r : SRule K} (hr : ∀ n, InRule r n → Bnd r.body n)
    {τ : Nat → Tm} {vs : List K} (h : List.Forall₂ (LitSat chart τ) r.body vs) : restr r τ ∈ GSub r := by
  refine ⟨fun n hn => ?_, fun n hn => by simp [restr, hn]⟩
  rw [restr_in hn]
  exact bnd_ground hch (sat_sub h) (hr n hn)

/-- the yields of a rule body correspond one to one to its satisfying groundings -/
theorem yields_sum {chart : Dict Tm K} (hch : ∀ x ∈ Dict.keys chart, Ground x) {r : SRule K}
    (hr : ∀ n, InRule r n → Bnd r.body n) {h : Heap} {L : List (List K × Heap)} (hL : Yields chart h r.body L)
    (w : List K × Heap → K) (W : (Nat → Tm) → K) (hw : ∀ p ∈ L, w p = W (restr r (res p.2)))
    (hW : ∀ θ, W θ ≠ 0 → θ ∈ Sat chart r ∧ Respects h θ) : (L.map w).sum = ∑ᶠ θ, W θ := by
  classical
  have hs : ∀ p ∈ L, List.Forall₂ (LitSat chart (res p.2)) r.body p.1 := fun p hp =>
    (hL.sound p hp _ (hL.good p hp).respects_res).2
  have hnd : (L.map fun p => restr r (res p.2)).Nodup := by
    unfold List.Nodup
    rw [List.pairwise_map]
    refine hL.disjoint.imp_of_mem ?_
    intro p p' hp hp' hd e
    refine hd (res p.2) (res p'.2) ?_ (hL.good p hp).respects_res (hL.good p' hp').respects_res
    intro z hz n hn
    have := congrFun e n
    rwa [restr_in (.inr ⟨z, hz, hn⟩), restr_in (.inr ⟨z, hz, hn⟩)] at this
  have hsup : Function.support W ⊆ ↑(L.map fun p => restr r (res p.2)).toFinset := by
    intro θ hθ
    obtain ⟨⟨g, hθ1⟩, hθ2⟩ := hW θ hθ
    obtain ⟨vs, hvs⟩ := forall2_of_sat hθ1
    obtain ⟨p, hp, h1, h2⟩ := hL.complete θ vs hθ2 hvs
    simp only [List.coe_toFinset, Set.mem_setOf_eq, List.mem_map]
    refine ⟨p, hp, ?_⟩
    funext n
    by_cases hn : InRule r n
    · rw [restr_in hn]
      have h3 : Ground (res p.2 n) := bnd_ground hch (sat_sub (hs p hp)) (hr n hn)
      have h4 := sub_eq_of_ground (hL.good p hp) (x := .var n) (by simpa using h3) h1
      simpa using h4.symm
    · rw [g.2 n hn]; simp [restr, hn]
  rw [finsum_eq_sum_of_support_subset _ hsup, List.sum_toFinset _ hnd, List.map_map]
  congr 1
  exact List.map_congr_left hw

end Sums

/-! ### The effect of updates -/

section Effects
variable [Semiring K]

/-- the priority function does not discard `x` -/
def Kept (prio : Option (Tm → Option Int)) (x : Tm) : Prop := ∀ p, prio = some p → p x ≠ none

structure ChgInv (prio : Option (Tm → Option Int)) (s : Chg K) : Prop where
  wf : Dict.WF s.change
  ground : ∀ x ∈ Dict.keys s.change, Ground x
  kept : ∀ x ∈ Dict.keys s.change, Kept prio x
  ag : ∀ x, x ∈ Dict.keys s.agenda ↔ x ∈ Dict.keys s.change

/-- from `s` to `s'` the amount `δ x` has been added to the buffered change of every kept item -/
structure Adds (prio : Option (Tm → Option Int)) (s s' : Chg K) (δ : Tm → K) : Prop where
  inv : ChgInv prio s → ChgInv prio s'
  kept : ∀ x, Kept prio x → value s'.change x = value s.change x + δ x

theorem Adds.refl (prio) (s : Chg K) : Adds prio s s (fun _ => 0) := ⟨id, by simp⟩

theorem Adds.trans {prio} {s s' s'' : Chg K} {δ δ' : Tm → K} (h : Adds prio s s' δ) (h' : Adds prio s' s'' δ') :
    Adds prio s s'' (fun x => δ x + δ' x) :=
  ⟨fun i => h'.inv (h.inv i), fun x hx => by rw [h'.kept x hx, h.kept x hx, add_assoc]⟩

theorem mem_keys_set {α β : Type} [DecidableEq α] (d : Dict α β) (k : α) (v : β) (x : α) :
    x ∈ Dict.keys (Dict.set d k v) ↔ x = k ∨ x ∈ Dict.keys d := by
  rw [Dict.mem_keys_iff_get, Dict.mem_keys_iff_get, Dict.get_set]
  by_cases h : k = x
  · simp [h]
  · simp [h, Ne.symm h]

theorem mem_keys_del {α β : Type} [DecidableEq α] (d : Dict α β) (k x : α) :
    x ∈ Dict.keys (Dict.del d k) ↔ x ∈ Dict.keys d ∧ x ≠ k := by
  rw [Dict.keys_del, List.mem_filter]; simp

theorem prioOf_none {prio : Option (Tm → Option Int)} {n : Int} {t : Tm} : prioOf prio n t = none ↔ ¬ Kept prio t := by
  unfold prioOf Kept
  cases prio with
  | none => simp
  | some p => simp

theorem update_restores {prio} {f : Nat} {item : Tm} {c : K} : Restores (update prio f item c) := by
  intro h s h' s' sig e
  unfold update at e
  split at e
  · simp at e; exact e.1.symm
  · split at e <;> simp at e <;> exact e.1.symm
  · simp at e

theorem update_adds {prio} {f : Nat} {item : Tm} {c : K} {h : Heap} (hg : Good h) {s h' s'}
    (e : update prio f item c h s = some (h', s', .done)) :
    Adds prio s s' (fun x => if item.sub (res h) = x then c else 0) := by
  unfold update at e
  split at e
  · simp at e
  · rename_i t eg ed
    have hgr := (ground_val hg eg).1 rfl
    have hd := deref_eq_sub ed
    rw [← hd] at hgr ⊢
    split at e
    · rename_i hp
      rw [prioOf_none] at hp
      simp only [Option.some.injEq, Prod.mk.injEq, and_true] at e
      obtain ⟨_, rfl⟩ := e
      refine ⟨fun i => ⟨i.wf, i.ground, i.kept, i.ag⟩, fun x hx => ?_⟩
      have : t ≠ x := by rintro rfl; exact hp hx
      simp [this]
    · rename_i p hp
      simp only [Option.some.injEq, Prod.mk.injEq, and_true] at e
      obtain ⟨_, rfl⟩ := e
      have hk : Kept prio t := by
        by_contra hn
        rw [← prioOf_none (n := s.pushes + 1)] at hn
        rw [hn] at hp; cases hp
      refine ⟨fun i => ⟨i.wf.set _ _, ?_, ?_, ?_⟩, fun x hx => ?_⟩
      · intro x hx
        rcases (mem_keys_set _ _ _ _).1 hx with rfl | hx
        · exact hgr
        · exact i.ground x hx
      · intro x hx
        rcases (mem_keys_set _ _ _ _).1 hx with rfl | hx
        · exact hk
        · exact i.kept x hx
      · intro x
        rw [mem_keys_set, mem_keys_set, i.ag]
      · unfold value
        simp only
        rw [Dict.get_set]
        by_cases ht : t = x
        · subst ht
          cases hv : Dict.get s.change t <;> simp [plus]
        · simp [ht]
  · simp at e

theorem calls_adds {α : Type} {prio} {k : α → Body (Chg K)} {δ : α × Heap → Tm → K} {L : List (α × Heap)} {s s' : Chg K}
    (h : RunCalls k L s s') (hk : ∀ p ∈ L, ∀ s s', k p.1 p.2 s = some (p.2, s', .done) → Adds prio s s' (δ p)) :
    Adds prio s s' (fun x => (L.map fun p => δ p x).sum) := by
  induction h with
  | nil => simpa using Adds.refl prio _
  | cons e _ ih =>
    have h1 := hk _ List.mem_cons_self _ _ e
    have h2 := ih fun p hp => hk p (by simp [hp])
    simpa using h1.trans h2

/-- the bindings at a yield of a safe rule make everything in it ground -/
theorem yield_ground {chart : Dict Tm K} (hch : ∀ x ∈ Dict.keys chart, Ground x) {r : SRule K}
    (hr : ∀ n, InRule r n → Bnd r.body n) {h : Heap} {L : List (List K × Heap)} (hL : Yields chart h r.body L) {p} (hp : p ∈ L)
    {n : Nat} (hn : InRule r n) : Ground (res p.2 n) :=
  bnd_ground hch (sat_sub (hL.sound p hp _ (hL.good p hp).respects_res).2) (hr n hn)

theorem multiple_one {chart : Dict Tm K} (hch : ∀ x ∈ Dict.keys chart, Ground x) {r : SRule K}
    (hr : ∀ n, InRule r n → Bnd r.body n) {h : Heap} {L : List (List K × Heap)} (hL : Yields chart h r.body L) {p} (hp : p ∈ L)
    {inf m : K} {f : Nat} (e : multiple inf f p.2 r = some m) : m = 1 := by
  unfold multiple at e
  split at e
  · rename_i b hd eb eh
    simp only [Option.some.injEq] at e
    have hb : vars b = ∅ := by
      rw [deref_eq_sub eb]
      refine ground_sub fun n hn => yield_ground hch hr hL hp (.inr ?_)
      simp only [vars_app, mem_varsL, List.mem_flatMap] at hn
      obtain ⟨t, ⟨z, hz, ht⟩, hn⟩ := hn
      refine ⟨z, hz, ?_⟩
      cases z with
      | val k => simp [litTerms] at ht
      | sub t' => simp [litTerms] at ht; subst ht; exact hn
      | eq x y => simp [litTerms] at ht; rcases ht with rfl | rfl <;> simp [litVars, hn]
      | cmp o x y => simp [litTerms] at ht; rcases ht with rfl | rfl <;> simp [litVars, hn]
    rw [hb] at e
    simpa using e.symm
  · simp at e

theorem instAt_support {chart : Dict Tm K} {r : SRule K} {x : Tm} {θ : Nat → Tm} (h : instAt r (value chart) x θ ≠ 0) :
    θ ∈ Sat chart r ∧ r.head.sub θ = x := by
  unfold instAt at h
  split at h
  · rename_i hc
    refine ⟨⟨hc.1, ?_⟩, hc.2⟩
    intro z hz
    by_contra hn
    refine h ?_
    unfold instVal
    exact List.prod_eq_zero (List.mem_map.2 ⟨z, hz, litVal_unsat fun v hv => hn ⟨v, hv⟩⟩)
  · exact absurd rfl h

/-- what the index may return for this chart -/
def CandOk (chart : Dict Tm K) (cand : Tm → List Tm) : Prop :=
  ∀ c as, (cand (.app (.con c :: as))).Nodup ∧ (∀ x ∈ cand (.app (.con c :: as)), x ∈ Dict.keys chart) ∧
      ∀ x ∈ Dict.keys chart, InstanceOf x (.app (.con c :: as)) → x ∈ cand (.app (.con c :: as))

theorem initRule_adds {g : Cfg K} {f : Nat} {chart : Dict Tm K} {cand : Tm → List Tm} {r : SRule K} {h' : Heap} {s s' : Chg K}
    (hch : ∀ x ∈ Dict.keys chart, Ground x) (hc : CandOk chart cand) (hr : Safe r)
    (e : initRule g f chart cand r noHeap s = some (h', s', .done)) :
    Adds g.prio s s' (fun x => contrib r (value chart) x) := by
  have hrest : ∀ P : List K, Restores (fun h s => match multiple g.inf f h r with
      | none => none
      | some m => update g.prio f r.head (P.foldl (· * ·) 1 * m) h s) := by
    intro P h s h' s' sig e
    simp only at e
    split at e
    · simp at e
    · exact update_restores _ _ _ _ _ e
  obtain ⟨L, hL, hrun⟩ := join_spec hrest hch hc r.body hr.fn [] _ _ _ _ good_noHeap e
  have := calls_adds (δ := fun p x => if r.head.sub (res p.2) = x then p.1.prod else 0) (prio := g.prio) hrun (by
    intro p hp s s' e
    simp only [List.nil_append] at e
    split at e
    · simp at e
    · rename_i m hm
      have hm1 := multiple_one hch hr.bnd hL hp hm
      subst hm1
      rw [mul_one, ← List.prod_eq_foldl] at e
      exact update_adds (hL.good p hp) e)
  refine ⟨this.inv, fun x hx => ?_⟩
  rw [this.kept x hx]
  congr 1
  refine yields_sum hch hr.bnd hL _ _ ?_ ?_
  · intro p hp
    have hs := (hL.sound p hp _ (hL.good p hp).respects_res).2
    unfold instAt
    rw [restr_head, instVal_sat (restr_sat hs)]
    simp [restr_mem hch hr.bnd hs]
  · intro θ hθ
    exact ⟨(instAt_support hθ).1, respects_noHeap θ⟩

/-! ### The effect of driving the rules with one item -/

/-- the product for one driver: elements before the driver at their old values, after it at their new ones -/
def mixed (v v' : Tm → K) (Δ : K) (θ : Nat → Tm) (i : Nat) : List (BLit K) → Nat → K
  | [], _ => 1
  | z :: zs, j => (if j < i then litVal v θ z else if i = j then Δ else litVal v' θ z) * mixed v v' Δ θ i zs (j + 1)

theorem litVal_change {v v' : Tm → K} {a : Tm} (hv : ∀ x, x ≠ a → v' x = v x) {θ : Nat → Tm} {z : BLit K}
    (h : ∀ t, z = .sub t → t.sub θ ≠ a) : litVal v' θ z = litVal v θ z := by
  cases z with
  | val k => rfl
  | sub t => exact hv _ (h t rfl)
  | eq x y => rfl
  | cmp o x y => rfl

theorem mixed_after (v v' : Tm → K) (Δ : K) (θ : Nat → Tm) (i : Nat) : ∀ zs j, i < j → mixed v v' Δ θ i zs j = instVal v' zs θ := by
  intro zs
  induction zs with
  | nil => intro j _; simp [mixed, instVal]
  | cons z zs ih =>
    intro j hj
    rw [mixed, ih (j + 1) (by omega), if_neg (by omega), if_neg (by omega)]
    simp [instVal]

/-- which occurrences a driver list contributes at a grounding -/
def drvSum (v v' : Tm → K) (Δ : K) (a : Tm) (θ : Nat → Tm) (body : List (BLit K)) (jb : Nat) (ds : List (SRule K × Nat × Tm)) : K :=
  (ds.map fun d => if d.2.2.sub θ = a then mixed v v' Δ θ d.2.1 body jb else 0).sum

theorem driver_idx {a : Tm} {r : SRule K} {zs : List (BLit K)} {j : Nat} {d : SRule K × Nat × Tm}
    (hd : d ∈ (zs.zipIdx j).filterMap (driverAt a r)) : j ≤ d.2.1 ∧ d.1 = r ∧ BLit.sub d.2.2 ∈ zs := by
  rw [List.mem_filterMap] at hd
  obtain ⟨⟨z, i⟩, hp, e⟩ := hd
  have := List.mem_zipIdx hp
  have hz := List.fst_mem_of_mem_zipIdx hp
  unfold driverAt at e
  cases z with
  | val k => simp at e
  | eq x y => simp at e
  | cmp o x y => simp at e
  | sub t =>
    simp only at e
    split at e
    · cases e
      exact ⟨this.1, rfl, hz⟩
    · cases e

/-- the telescoping identity behind lines 101-108 -/
theorem telescope {v v' : Tm → K} {a : Tm} {Δ : K} (hv : ∀ x, x ≠ a → v' x = v x) (ha : v' a = v a + Δ) (r : SRule K) (θ : Nat → Tm) :
    ∀ zs j, (∀ t, BLit.sub t ∈ zs → ∃ c as, t = .app (.con c :: as)) →
      instVal v' zs θ = instVal v zs θ + drvSum v v' Δ a θ zs j ((zs.zipIdx j).filterMap (driverAt a r)) := by
  intro zs
  induction zs with
  | nil => intro j _; simp [instVal, drvSum]
  | cons z zs ih =>
    intro j hfn
    have ih := ih (j + 1) fun t ht => hfn t (by simp [ht])
    have hrest : drvSum v v' Δ a θ (z :: zs) j ((zs.zipIdx (j + 1)).filterMap (driverAt a r)) =
        litVal v θ z * drvSum v v' Δ a θ zs (j + 1) ((zs.zipIdx (j + 1)).filterMap (driverAt a r)) := by
      unfold drvSum
      rw [← List.sum_map_mul_left]
      congr 1
      refine List.map_congr_left fun d hd => ?_
      have := (driver_idx hd).1
      split
      · rw [mixed, if_pos (by omega)]
      · simp
    have hsplit : instVal v' (z :: zs) θ = litVal v' θ z * instVal v' zs θ := by simp [instVal]
    have hsplit2 : instVal v (z :: zs) θ = litVal v θ z * instVal v zs θ := by simp [instVal]
    rw [List.zipIdx_cons, hsplit, hsplit2]
    by_cases hz : ∃ t, z = .sub t ∧ t.sub θ = a
    · obtain ⟨t, rfl, ht⟩ := hz
      obtain ⟨c, as, hta⟩ := hfn t (by simp)
      have hsig : sigOf t = sigOf a := by
        rw [← ht, hta]; simp [sigOf, Tm.parts]
      have hd : driverAt a r (BLit.sub t, j) = some (r, j, t) := by simp [driverAt, hsig]
      rw [List.filterMap_cons_some hd]
      have : drvSum v v' Δ a θ (.sub t :: zs) j ((r, j, t) :: (zs.zipIdx (j + 1)).filterMap (driverAt a r)) =
          Δ * instVal v' zs θ + drvSum v v' Δ a θ (.sub t :: zs) j ((zs.zipIdx (j + 1)).filterMap (driverAt a r)) := by
        unfold drvSum
        rw [List.map_cons, List.sum_cons]
        congr 1
        simp only [ht, if_true, mixed, lt_irrefl, if_false]
        rw [mixed_after _ _ _ _ _ _ _ (by omega)]
      rw [this, hrest]
      have e1 : litVal v' θ (.sub t) = litVal v θ (.sub t) + Δ := by simp [litVal, ht, ha]
      rw [e1, add_mul, add_comm (Δ * _), ← add_assoc, ← mul_add, ← ih]
    · have e1 : litVal v' θ z = litVal v θ z := litVal_change hv fun t ht hta => hz ⟨t, ht, hta⟩
      have : drvSum v v' Δ a θ (z :: zs) j (((z, j) :: zs.zipIdx (j + 1)).filterMap (driverAt a r)) =
          drvSum v v' Δ a θ (z :: zs) j ((zs.zipIdx (j + 1)).filterMap (driverAt a r)) := by
        cases hd : driverAt a r (z, j) with
        | none => rw [List.filterMap_cons_none hd]
        | some d =>
          rw [List.filterMap_cons_some hd]
          unfold drvSum
          rw [List.map_cons, List.sum_cons]
          have hdt : ¬ d.2.2.sub θ = a := by
            unfold driverAt at hd
            cases z with
            | val k => simp at hd
            | eq x y => simp at hd
            | cmp o x y => simp at hd
            | sub t =>
              simp only at hd
              split at hd
              · cases hd
                intro h; exact hz ⟨t, rfl, h⟩
              · cases hd
          simp [hdt]
      rw [this, hrest, e1, ← mul_add, ← ih]

theorem deltaProd_val {chart : Dict Tm K} {v : Tm → K} {a : Tm} {old Δ : K} (hv : ∀ x, x ≠ a → value chart x = v x) (hold : v a = old)
    (hag : Ground a) {f i : Nat} {h : Heap} (hg : Good h) : ∀ zs ps j c c',
      List.Forall₂ (LitSat chart (res h)) zs ps →
      deltaProd f h a i old Δ zs ps j c = some c' → c' = c * mixed v (value chart) Δ (res h) i zs j := by
  intro zs
  induction zs with
  | nil => intro ps j c c' hs e; cases hs; simp [deltaProd] at e; simp [mixed, e]
  | cons z zs ih =>
    intro ps j c c' hs e
    cases hs with
    | cons h1 h2 =>
      rename_i p ps
      rw [deltaProd] at e
      cases hl : litEq h f a z with
      | none => simp [hl] at e
      | some b =>
        simp only [hl] at e
        have hb : b = true → ∃ t, z = .sub t ∧ t.sub (res h) = a := by
          rintro rfl
          cases z with
          | val k => simp [litEq] at hl
          | eq x y => simp [litEq] at hl
          | cmp o x y => simp [litEq] at hl
          | sub t =>
            refine ⟨t, rfl, ?_⟩
            have := (eq_val hg hl).1 rfl
            rwa [Chart.sub_ground hag] at this
        have hb' : b = false → ∀ t, z = .sub t → t.sub (res h) ≠ a := by
          rintro rfl t rfl he
          have := (eq_val hg hl).2 (by rw [he, Chart.sub_ground hag])
          cases this
        rw [mixed]
        by_cases hji : j < i
        · rw [if_pos hji]
          cases b with
          | true =>
            rw [if_pos ⟨hji, rfl⟩] at e
            rw [ih _ _ _ _ h2 e, mul_assoc]
            obtain ⟨t, rfl, ht⟩ := hb rfl
            simp [litVal, ht, hold]
          | false =>
            rw [if_neg (by simp), if_neg (by omega)] at e
            rw [ih _ _ _ _ h2 e, mul_assoc, ← litVal_change hv (hb' rfl), litVal_sat h1]
        · rw [if_neg hji]
          rw [if_neg (by simp [hji])] at e
          by_cases hij : i = j
          · rw [if_pos hij] at e ⊢
            rw [ih _ _ _ _ h2 e, mul_assoc]
          · rw [if_neg hij] at e ⊢
            rw [ih _ _ _ _ h2 e, mul_assoc, litVal_sat h1]

open Classical in
/-- what a driver contributes to item `x` at a grounding -/
noncomputable def drvAt (v v' : Tm → K) (Δ : K) (a x : Tm) (d : SRule K × Nat × Tm) (θ : Nat → Tm) : K :=
  if θ ∈ GSub d.1 ∧ d.1.head.sub θ = x then (if d.2.2.sub θ = a then mixed v v' Δ θ d.2.1 d.1.body 0 else 0) else 0

theorem mixed_zero {v v' : Tm → K} {Δ : K} {θ : Nat → Tm} {i : Nat} : ∀ {zs : List (BLit K)} {j : Nat} (m : Nat) (hm : m < zs.length),
    j + m ≠ i → litVal v θ zs[m] = 0 → litVal v' θ zs[m] = 0 → mixed v v' Δ θ i zs j = 0 := by
  intro zs
  induction zs with
  | nil => intro j m hm; simp at hm
  | cons z zs ih =>
    intro j m hm hne h1 h2
    rw [mixed]
    cases m with
    | zero =>
      simp only [List.getElem_cons_zero] at h1 h2
      simp only [Nat.add_zero] at hne
      rw [h1, h2, if_neg (Ne.symm hne)]
      simp
    | succ m =>
      rw [ih (j := j + 1) m (by simpa using hm) (by omega) (by simpa using h1) (by simpa using h2), mul_zero]

theorem drvAt_support {chart : Dict Tm K} {a x : Tm} {Δ : K} {v : Tm → K} (ha : a ∈ Dict.keys chart)
    (hv : ∀ x, x ≠ a → value chart x = v x) {d : SRule K × Nat × Tm} (hi : d.2.1 < d.1.body.length)
    (hdi : d.1.body[d.2.1] = .sub d.2.2) {θ : Nat → Tm} (hθ : drvAt v (value chart) Δ a x d θ ≠ 0) :
    θ ∈ Sat chart d.1 ∧ d.2.2.sub θ = a := by
  unfold drvAt at hθ
  split at hθ
  · rename_i hc1
    split at hθ
    · rename_i hc2
      refine ⟨⟨hc1.1, ?_⟩, hc2⟩
      intro z hz
      by_contra hn
      obtain ⟨m, hm, rfl⟩ := List.getElem_of_mem hz
      by_cases hmi : m = d.2.1
      · subst hmi
        obtain ⟨w, hw⟩ := (Dict.mem_keys_iff_get _ _).1 ha
        rw [hdi] at hn
        exact hn ⟨w, by simp only [LitSat]; rw [hc2]; exact hw⟩
      · refine hθ (mixed_zero m hm (by omega) ?_ (litVal_unsat fun w hw => hn ⟨w, hw⟩))
        have hun : ∀ w, ¬ LitSat chart θ d.1.body[m] w := fun w hw => hn ⟨w, hw⟩
        have h0 := litVal_unsat hun
        rw [← litVal_change (a := a) hv, h0]
        intro t ht hta
        rw [ht] at hun
        obtain ⟨w, hw⟩ := (Dict.mem_keys_iff_get _ _).1 ha
        exact hun w (by simp only [LitSat]; rw [hta]; exact hw)
    · exact absurd rfl hθ
  · exact absurd rfl hθ

theorem drive_adds {g : Cfg K} {f : Nat} {chart : Dict Tm K} {cand : Tm → List Tm} {a : Tm} {old Δ : K} {v : Tm → K}
    (hch : ∀ x ∈ Dict.keys chart, Ground x) (hc : CandOk chart cand) (ha : a ∈ Dict.keys chart)
    (hv : ∀ x, x ≠ a → value chart x = v x) (hold : v a = old) :
    ∀ (ds : List (SRule K × Nat × Tm)), (∀ d ∈ ds, Safe d.1 ∧ d.1.body[d.2.1]? = some (.sub d.2.2)) → ∀ s h' s',
      forEach ds (fun d => unifyF f a d.2.2 (joinF f chart cand d.1.body [] fun P h s =>
        match deltaProd f h a d.2.1 old Δ d.1.body P 0 1 with
        | none => none
        | some c => update g.prio f d.1.head c h s)) noHeap s = some (h', s', .done) →
      Adds g.prio s s' (fun x => (ds.map fun d => ∑ᶠ θ, drvAt v (value chart) Δ a x d θ).sum) := by
  have hag := hch a ha
  intro ds
  induction ds with
  | nil =>
    intro _ s h' s' e
    simp only [forEach, Option.some.injEq, Prod.mk.injEq, and_true] at e
    obtain ⟨_, rfl⟩ := e
    simpa using Adds.refl g.prio s
  | cons d ds ih =>
    intro hds s h' s' e
    obtain ⟨hr, hdi⟩ := hds d (by simp)
    obtain ⟨hi, hdi⟩ := List.getElem?_eq_some_iff.1 hdi
    have hdm : BLit.sub d.2.2 ∈ d.1.body := hdi ▸ List.getElem_mem hi
    obtain ⟨h1, s1, e1, e2⟩ := forEach_cons_done e
    have hrest : ∀ P : List K, Restores (fun h s => match deltaProd f h a d.2.1 old Δ d.1.body P 0 1 with
        | none => none
        | some c => update g.prio f d.1.head c h s) := by
      intro P h s h' s' sig e
      simp only at e
      split at e
      · simp at e
      · exact update_restores _ _ _ _ _ e
    obtain ⟨rfl, hu⟩ := unify_done good_noHeap (joinF_restores hrest _ _) e1
    have hrest2 := ih (fun d hd => hds d (by simp [hd])) s1 h' s' e2
    have hfirst : Adds g.prio s s1 (fun x => ∑ᶠ θ, drvAt v (value chart) Δ a x d θ) := by
      rcases hu with ⟨hf, rfl⟩ | ⟨h2, g1, g2, e3⟩
      · have : (fun x => ∑ᶠ θ, drvAt v (value chart) Δ a x d θ) = fun _ => 0 := by
          funext x
          rw [← finsum_zero (α := Nat → Tm)]
          congr 1
          funext θ
          unfold drvAt
          have := hf θ (respects_noHeap θ)
          rw [Chart.sub_ground hag] at this
          simp [Ne.symm this]
        rw [this]; exact Adds.refl _ _
      · obtain ⟨L, hL, hrun⟩ := join_spec hrest hch hc d.1.body hr.fn [] _ _ _ _ g1 e3
        have hsat : ∀ p ∈ L, List.Forall₂ (LitSat chart (res p.2)) d.1.body p.1 := fun p hp =>
          (hL.sound p hp _ (hL.good p hp).respects_res).2
        have hda : ∀ p ∈ L, d.2.2.sub (res p.2) = a := fun p hp => by
          have := ((g2 _).1 (hL.sound p hp _ (hL.good p hp).respects_res).1).2
          rw [Chart.sub_ground hag] at this
          exact this.symm
        have := calls_adds (δ := fun p x => if d.1.head.sub (res p.2) = x then mixed v (value chart) Δ (res p.2) d.2.1 d.1.body 0 else 0)
          (prio := g.prio) hrun (by
            intro p hp s s' e
            simp only [List.nil_append] at e
            split at e
            · simp at e
            · rename_i c hcc
              have := deltaProd_val hv hold hag (hL.good p hp) _ _ _ _ _ (hsat p hp) hcc
              rw [one_mul] at this
              subst this
              exact update_adds (hL.good p hp) e)
        refine ⟨this.inv, fun x hx => ?_⟩
        rw [this.kept x hx]
        congr 1
        refine yields_sum hch hr.bnd hL _ _ ?_ ?_
        · intro p hp
          have hcong : ∀ zs : List (BLit K), (∀ z ∈ zs, z ∈ d.1.body) → ∀ j,
              mixed v (value chart) Δ (restr d.1 (res p.2)) d.2.1 zs j = mixed v (value chart) Δ (res p.2) d.2.1 zs j := by
            intro zs
            induction zs with
            | nil => intro _ j; rfl
            | cons z zs ihz =>
              intro hz j
              rw [mixed, mixed, ihz fun z h => hz z (by simp [h])]
              have hlv : ∀ w : Tm → K, litVal w (restr d.1 (res p.2)) z = litVal w (res p.2) z := by
                intro w
                have hin : ∀ n ∈ litVars z, restr d.1 (res p.2) n = res p.2 n := fun n hn =>
                  restr_in (.inr ⟨z, hz z (by simp), hn⟩)
                cases z with
                | val k => rfl
                | sub t => simp only [litVal]; rw [sub_congr hin]
                | eq x y =>
                  simp only [litVars, Finset.mem_union] at hin
                  simp only [litVal]; rw [sub_congr fun n hn => hin n (.inl hn), sub_congr fun n hn => hin n (.inr hn)]
                | cmp o x y =>
                  simp only [litVars, Finset.mem_union] at hin
                  simp only [litVal]; rw [sub_congr fun n hn => hin n (.inl hn), sub_congr fun n hn => hin n (.inr hn)]
              rw [hlv, hlv]
          unfold drvAt
          rw [restr_head, restr_sub hdm, hda p hp, hcong _ (fun _ h => h)]
          simp [restr_mem hch hr.bnd (hsat p hp)]
        · intro θ hθ
          obtain ⟨h1, h2⟩ := drvAt_support ha hv hi hdi hθ
          exact ⟨h1, (g2 θ).2 ⟨respects_noHeap θ, by rw [Chart.sub_ground hag, h2]⟩⟩
    simpa using hfirst.trans hrest2

theorem driver_getElem {a : Tm} {r : SRule K} {d : SRule K × Nat × Tm} (hd : d ∈ r.body.zipIdx.filterMap (driverAt a r)) :
    d.1 = r ∧ r.body[d.2.1]? = some (.sub d.2.2) := by
  rw [List.mem_filterMap] at hd
  obtain ⟨⟨z, i⟩, hp, e⟩ := hd
  have hz := (List.mem_zipIdx_iff_getElem?).1 hp
  unfold driverAt at e
  cases z with
  | val k => simp at e
  | eq x y => simp at e
  | cmp o x y => simp at e
  | sub t =>
    simp only at e
    split at e
    · cases e
      exact ⟨rfl, hz⟩
    · cases e

theorem sat_mono {chart chart' : Dict Tm K} (h : ∀ x ∈ Dict.keys chart, x ∈ Dict.keys chart') (r : SRule K) :
    Sat chart r ⊆ Sat chart' r := by
  rintro θ ⟨g, hθ⟩
  refine ⟨g, fun z hz => ?_⟩
  obtain ⟨v, hv⟩ := hθ z hz
  cases z with
  | val k => exact ⟨_, hv⟩
  | eq x y => exact ⟨_, hv⟩
  | cmp o x y => exact ⟨_, hv⟩
  | sub t =>
    obtain ⟨w, hw⟩ := (Dict.mem_keys_iff_get _ _).1 (h _ ((Dict.mem_keys_iff_get _ _).2 ⟨v, hv⟩))
    exact ⟨w, hw⟩

theorem sum_swap {α β : Type} (l : List α) (S : Finset β) (F : α → β → K) :
    (l.map fun a => ∑ b ∈ S, F a b).sum = ∑ b ∈ S, (l.map fun a => F a b).sum := by
  induction l with
  | nil => simp
  | cons a l ih => simp [ih, Finset.sum_add_distrib]

theorem contrib_step {chart : Dict Tm K} {a : Tm} {Δ : K} {r : SRule K} (hr : Safe r) (x : Tm) :
    contrib r (value (Dict.set chart a (value chart a + Δ))) x = contrib r (value chart) x +
      ((r.body.zipIdx.filterMap (driverAt a r)).map fun d =>
        ∑ᶠ θ, drvAt (value chart) (value (Dict.set chart a (value chart a + Δ))) Δ a x d θ).sum := by
  classical
  set chart' := Dict.set chart a (value chart a + Δ) with hchart'
  have hva : value chart' a = value chart a + Δ := by simp [value, hchart', Dict.get_set]
  have hv : ∀ y, y ≠ a → value chart' y = value chart y := fun y hy => by
    simp [value, hchart', Dict.get_set, Ne.symm hy]
  have hfin := sat_finite (chart := chart') hr.bnd
  have hsup : ∀ F : (Nat → Tm) → K, (∀ θ, F θ ≠ 0 → θ ∈ Sat chart' r) → ∑ᶠ θ, F θ = ∑ θ ∈ hfin.toFinset, F θ := by
    intro F hF
    refine finsum_eq_sum_of_support_subset _ ?_
    intro θ hθ
    simpa using hF θ hθ
  have hsub := sat_mono (chart := chart) (chart' := chart') (fun y hy => (mem_keys_set _ _ _ _).2 (.inr hy)) r
  have hak : a ∈ Dict.keys chart' := (mem_keys_set _ _ _ _).2 (.inl rfl)
  have e3 : ((r.body.zipIdx.filterMap (driverAt a r)).map fun d => ∑ᶠ θ, drvAt (value chart) (value chart') Δ a x d θ) =
      ((r.body.zipIdx.filterMap (driverAt a r)).map fun d => ∑ θ ∈ hfin.toFinset, drvAt (value chart) (value chart') Δ a x d θ) := by
    refine List.map_congr_left fun d hd => hsup _ fun θ hθ => ?_
    obtain ⟨h1, h2⟩ := driver_getElem hd
    rw [← h1] at h2
    obtain ⟨hi, hdi⟩ := List.getElem?_eq_some_iff.1 h2
    rw [← h1]
    exact (drvAt_support hak hv hi hdi hθ).1
  unfold contrib
  rw [hsup _ (fun θ hθ => (instAt_support hθ).1), hsup _ (fun θ hθ => hsub (instAt_support hθ).1), e3, sum_swap, ← Finset.sum_add_distrib]
  refine Finset.sum_congr rfl fun θ _ => ?_
  unfold instAt
  have hds : ((r.body.zipIdx.filterMap (driverAt a r)).map fun d => drvAt (value chart) (value chart') Δ a x d θ).sum =
      if θ ∈ GSub r ∧ r.head.sub θ = x then drvSum (value chart) (value chart') Δ a θ r.body 0 (r.body.zipIdx.filterMap (driverAt a r)) else 0 := by
    split
    · rename_i hc
      unfold drvSum
      congr 1
      refine List.map_congr_left fun d hd => ?_
      unfold drvAt
      rw [(driver_getElem hd).1, if_pos hc]
    · rename_i hc
      have : ((r.body.zipIdx.filterMap (driverAt a r)).map fun d => drvAt (value chart) (value chart') Δ a x d θ) =
          ((r.body.zipIdx.filterMap (driverAt a r)).map fun _ => (0 : K)) := by
        refine List.map_congr_left fun d hd => ?_
        unfold drvAt
        rw [(driver_getElem hd).1, if_neg hc]
      rw [this]; simp
  rw [hds]
  split
  · exact telescope hv hva r θ r.body 0 hr.fn
  · simp

end Effects

/-! ### Runs -/

section Runs
variable [Semiring K]

/-- every state a solver can be in between two elementary actions (loading one data item, initializing
one rule, processing one agenda item), with the data loaded so far; agenda items are only processed once
every rule has been initialized, as in `_forward_chaining` -/
inductive Run (g : Cfg K) : List (Tm × K) → St K → Prop
  | empty : Run g [] St.empty
  | load {D st f x v h' s'} : Run g D st → update g.prio f x v noHeap st.chg = some (h', s', .done) →
      Run g ((x, v) :: D) ⟨st.chart, s', st.inited⟩
  | init {D st f cand i r h' s'} : Run g D st → i ∉ st.inited → g.rules[i]? = some r → LawfulCand cand →
      initRule g f st.chart (cand st.chart) r noHeap st.chg = some (h', s', .done) →
      Run g D ⟨st.chart, s', i :: st.inited⟩
  | pop {D st st'} : Run g D st → (∀ i < g.rules.length, i ∈ st.inited) → Pop g st st' → Run g D st'

/-- the data loaded for an item -/
def dataAt (D : List (Tm × K)) (x : Tm) : K := (D.map fun p => if p.1 = x then p.2 else 0).sum

/-- the contributions of the initialized rules -/
noncomputable def initSum (rules : List (SRule K)) (n : Nat) (ini : List Nat) (v : Tm → K) (x : Tm) : K :=
  ((rules.zipIdx n).map fun p => if p.2 ∈ ini then contrib p.1 v x else 0).sum

theorem initSum_all {ini : List Nat} {v : Tm → K} {x : Tm} : ∀ {rules : List (SRule K)} {n : Nat},
    (∀ i < rules.length, n + i ∈ ini) → initSum rules n ini v x = rhs rules v x := by
  intro rules
  induction rules with
  | nil => intro n _; simp [initSum, rhs]
  | cons r rules ih =>
    intro n h
    have := ih (n := n + 1) fun i hi => by have := h (i + 1) (by simpa using hi); rwa [show n + 1 + i = n + (i + 1) by omega]
    unfold initSum rhs at *
    rw [List.zipIdx_cons, List.map_cons, List.sum_cons, this, List.map_cons, List.sum_cons, if_pos (by simpa using h 0 (by simp))]

theorem initSum_add {ini : List Nat} {v : Tm → K} {x : Tm} {i : Nat} (hi : i ∉ ini) : ∀ {rules : List (SRule K)} {n : Nat},
    initSum rules n (i :: ini) v x = initSum rules n ini v x +
      (if n ≤ i then (match rules[i - n]? with | some r => contrib r v x | none => 0) else 0) := by
  intro rules
  induction rules with
  | nil => intro n; simp [initSum]
  | cons r rules ih =>
    intro n
    have := ih (n := n + 1)
    unfold initSum at *
    rw [List.zipIdx_cons, List.map_cons, List.sum_cons, this, List.map_cons, List.sum_cons]
    by_cases hin : i = n
    · subst hin
      simp [hi, add_comm]
    · have h1 : n ∈ i :: ini ↔ n ∈ ini := by simp [Ne.symm hin]
      simp only [h1]
      rw [add_assoc]
      congr 2
      by_cases hle : n ≤ i
      · have h2 : i - n = (i - (n + 1)) + 1 := by omega
        rw [if_pos (by omega), if_pos hle, h2]
        simp
      · rw [if_neg (by omega), if_neg hle]

/-- the amount `δ` was discarded as too small when the value was `old`, and `old` is part of today's value `w` -/
def Discarded (approx : K → K → Bool) (w δ : K) : Prop := ∃ old e, approx (old + δ) old = true ∧ w = old + e

structure SInv (g : Cfg K) (D : List (Tm × K)) (st : St K) : Prop where
  wf : Dict.WF st.chart
  ground : ∀ x ∈ Dict.keys st.chart, Ground x
  kept : ∀ x ∈ Dict.keys st.chart, Kept g.prio x
  chg : ChgInv g.prio st.chg
  eqn : ∀ x, Kept g.prio x → ∃ ls : List K, (∀ δ ∈ ls, Discarded g.approx (value st.chart x) δ) ∧
    initSum g.rules 0 st.inited (value st.chart) x + dataAt D x = value st.chart x + value st.chg.change x + ls.sum

theorem sinv_empty (g : Cfg K) : SInv g [] St.empty := by
  refine ⟨Dict.WF.nil, by simp [St.empty], by simp [St.empty], ⟨Dict.WF.nil, by simp [St.empty], by simp [St.empty], by simp [St.empty]⟩, ?_⟩
  intro x _
  refine ⟨[], by simp, ?_⟩
  simp [initSum, St.empty, dataAt, value]

theorem Adds.sinv {g : Cfg K} {D D' : List (Tm × K)} {st : St K} {s' : Chg K} {ini : List Nat} {δ : Tm → K} (hi : SInv g D st)
    (ha : Adds g.prio st.chg s' δ) (he : ∀ x, Kept g.prio x →
      initSum g.rules 0 ini (value st.chart) x + dataAt D' x = initSum g.rules 0 st.inited (value st.chart) x + dataAt D x + δ x) :
    SInv g D' ⟨st.chart, s', ini⟩ := by
  refine ⟨hi.wf, hi.ground, hi.kept, ha.inv hi.chg, fun x hx => ?_⟩
  obtain ⟨ls, h1, h2⟩ := hi.eqn x hx
  refine ⟨ls, h1, ?_⟩
  simp only
  rw [he x hx, h2, ha.kept x hx]
  simp only [add_assoc]
  congr 2
  rw [add_comm]

theorem sinv_run {g : Cfg K} (hr : ∀ r ∈ g.rules, Safe r) {D : List (Tm × K)} {st : St K} (h : Run g D st) : SInv g D st := by
  induction h with
  | empty => exact sinv_empty g
  | @load D st f y v h' s' _ e ih =>
    refine (update_adds good_noHeap e).sinv ih fun x _ => ?_
    have hy : y.sub (res noHeap) = y := by
      have : res noHeap = .var := by funext n; exact res_unbound rfl
      rw [this, sub_id]
    rw [hy]
    simp only [dataAt, List.map_cons, List.sum_cons]
    rw [add_assoc, add_comm (if y = x then v else 0)]
  | init _ hni hri hc e ih =>
    rename_i D st f cand i r h' s' _
    have hrm : r ∈ g.rules := List.mem_of_getElem? hri
    refine (initRule_adds ih.ground (fun c as => hc st.chart c as ih.wf ih.ground) (hr r hrm) e).sinv ih fun x _ => ?_
    rw [initSum_add hni]
    simp only [Nat.zero_le, if_true, Nat.sub_zero, hri]
    rw [add_assoc, add_assoc]
    congr 1
    rw [add_comm]
  | pop _ hall hp ih =>
    rename_i D st st' _
    obtain ⟨f, cand, a, hc, ha, e⟩ := hp
    unfold popF at e
    have hac := (ih.chg.ag a).1 ha
    obtain ⟨Δ, hΔ⟩ := (Dict.mem_keys_iff_get _ _).1 hac
    simp only [hΔ] at e
    have hak := ih.chg.kept a hac
    have hag := ih.chg.ground a hac
    have hchg : ChgInv g.prio (⟨st.chg.change.del a, st.chg.agenda.del a, st.chg.pushes⟩ : Chg K) := by
      refine ⟨ih.chg.wf.del _, fun x hx => ih.chg.ground x ((mem_keys_del _ _ _).1 hx).1,
        fun x hx => ih.chg.kept x ((mem_keys_del _ _ _).1 hx).1, fun x => ?_⟩
      rw [mem_keys_del, mem_keys_del, ih.chg.ag]
    have hdel : ∀ x, value (st.chg.change.del a) x = if x = a then 0 else value st.chg.change x := by
      intro x
      unfold value
      rw [Dict.get_del]
      by_cases hx : x = a
      · simp [hx]
      · have : ¬ a = x := Ne.symm hx
        simp [hx, this]
    have hΔv : value st.chg.change a = Δ := by simp [value, hΔ]
    split at e
    · rename_i happ
      simp only [Option.some.injEq, Prod.mk.injEq, and_true] at e
      subst e
      refine ⟨ih.wf, ih.ground, ih.kept, hchg, fun x hx => ?_⟩
      obtain ⟨ls, h1, h2⟩ := ih.eqn x hx
      by_cases hxa : x = a
      · subst hxa
        refine ⟨Δ :: ls, ?_, ?_⟩
        · intro δ hδ
          rcases List.mem_cons.1 hδ with rfl | hδ
          · exact ⟨value st.chart x, 0, happ, by simp⟩
          · exact h1 δ hδ
        · simp only
          rw [h2, hdel, if_pos rfl, hΔv]
          simp [add_assoc]
      · refine ⟨ls, h1, ?_⟩
        simp only
        rw [h2, hdel, if_neg hxa]
    · rename_i happ
      split at e
      · simp at e
      · rename_i h1 s' sig hdr
        simp only [Option.some.injEq, Prod.mk.injEq] at e
        obtain ⟨rfl, rfl⟩ := e
        set chart' := Dict.set st.chart a ((Dict.get st.chart a).getD 0 + Δ) with hchart'
        have hwf' : Dict.WF chart' := ih.wf.set _ _
        have hgr' : ∀ x ∈ Dict.keys chart', Ground x := by
          intro x hx
          rcases (mem_keys_set _ _ _ _).1 hx with rfl | hx
          · exact hag
          · exact ih.ground x hx
        have hkp' : ∀ x ∈ Dict.keys chart', Kept g.prio x := by
          intro x hx
          rcases (mem_keys_set _ _ _ _).1 hx with rfl | hx
          · exact hak
          · exact ih.kept x hx
        have hva : ∀ x, x ≠ a → value chart' x = value st.chart x := fun x hx => by
          simp [value, hchart', Dict.get_set, Ne.symm hx]
        have hva' : value chart' a = value st.chart a + Δ := by simp [value, hchart', Dict.get_set]
        have hadds := drive_adds (v := value st.chart) hgr' (fun c as => hc chart' c as hwf' hgr')
          ((mem_keys_set _ _ _ _).2 (.inl rfl)) hva rfl (drivers g.rules a) (by
            intro d hd
            simp only [drivers, List.mem_flatMap] at hd
            obtain ⟨r, hrm, hd⟩ := hd
            obtain ⟨h1, h2⟩ := driver_getElem hd
            rw [h1]
            exact ⟨hr r hrm, h2⟩) _ _ _ hdr
        refine ⟨hwf', hgr', hkp', hadds.inv hchg, fun x hx => ?_⟩
        obtain ⟨ls, l1, l2⟩ := ih.eqn x hx
        have hsum : rhs g.rules (value chart') x = rhs g.rules (value st.chart) x +
            ((drivers g.rules a).map fun d => ∑ᶠ θ, drvAt (value st.chart) (value chart') Δ a x d θ).sum := by
          unfold rhs drivers
          have : ∀ rules : List (SRule K), (∀ r ∈ rules, Safe r) → (rules.map fun r => contrib r (value chart') x).sum =
              (rules.map fun r => contrib r (value st.chart) x).sum +
              ((rules.flatMap fun r => r.body.zipIdx.filterMap (driverAt a r)).map fun d => ∑ᶠ θ, drvAt (value st.chart) (value chart') Δ a x d θ).sum := by
            intro rules
            induction rules with
            | nil => intro _; simp
            | cons r rules ihr =>
              intro hs
              rw [List.map_cons, List.sum_cons, ihr fun r h => hs r (by simp [h]), List.map_cons, List.sum_cons,
                List.flatMap_cons, List.map_append, List.sum_append]
              have := contrib_step (chart := st.chart) (a := a) (Δ := Δ) (hs r (by simp)) x
              rw [show value st.chart a = (Dict.get st.chart a).getD 0 from rfl, ← hchart'] at this
              rw [this]
              exact add_add_add_comm _ _ _ _
          exact this g.rules hr
        rw [initSum_all fun i hi => by simpa using hall i hi] at l2
        refine ⟨ls, ?_, ?_⟩
        · intro δ hδ
          obtain ⟨old, e, h1, h2⟩ := l1 δ hδ
          by_cases hxa : x = a
          · subst hxa
            exact ⟨old, e + Δ, h1, by simp only; rw [hva', h2, add_assoc]⟩
          · exact ⟨old, e, h1, by simp only; rw [hva x hxa, h2]⟩
        · simp only
          rw [initSum_all fun i hi => by simpa using hall i hi, hsum, hadds.kept x hx]
          simp only
          rw [hdel]
          have l2' : rhs g.rules (value st.chart) x + dataAt D x =
              value chart' x + (if x = a then 0 else value st.chg.change x) + ls.sum := by
            rw [l2]
            by_cases hxa : x = a
            · subst hxa; rw [hva', if_pos rfl, hΔv, add_zero]
            · rw [hva x hxa, if_neg hxa]
          rw [add_right_comm, l2']
          simp only [add_assoc]
          congr 2
          rw [add_comm]

/-! ### Calls are runs -/

theorem run_loadAll {g : Cfg K} {f : Nat} : ∀ {d : List (Tm × K)} {D : List (Tm × K)} {st st' : St K}, Run g D st →
    loadAll g f d st = some (st', .done) → Run g (d.reverse ++ D) st' := by
  intro d
  induction d with
  | nil => intro D st st' h e; simp [loadAll] at e; subst e; simpa using h
  | cons p d ih =>
    intro D st st' h e
    obtain ⟨x, v⟩ := p
    simp only [loadAll] at e
    cases hu : update g.prio f x v noHeap st.chg with
    | none => simp [hu] at e
    | some q =>
      obtain ⟨h1, s1, sig⟩ := q
      simp only [hu] at e
      cases sig with
      | brk => simp at e
      | exc n => simp at e
      | done =>
        have := ih (Run.load h hu) e
        simpa using this

theorem run_initAll {g : Cfg K} {f : Nat} {cand} (hc : LawfulCand cand) : ∀ {rs : List (SRule K)} {i : Nat} {D : List (Tm × K)} {st st' : St K},
    Run g D st → (∀ m, rs[m]? = g.rules[i + m]?) → initAll g f cand rs i st = some (st', .done) →
    Run g D st' ∧ (∀ j ∈ st.inited, j ∈ st'.inited) ∧ ∀ m < rs.length, i + m ∈ st'.inited := by
  intro rs
  induction rs with
  | nil => intro i D st st' h _ e; simp [initAll] at e; subst e; exact ⟨h, by simp, by simp⟩
  | cons r rs ih =>
    intro i D st st' h hrs e
    have hrs' : ∀ m, rs[m]? = g.rules[i + 1 + m]? := fun m => by
      have := hrs (m + 1)
      simpa [show i + (m + 1) = i + 1 + m by omega] using this
    simp only [initAll] at e
    split at e
    · rename_i hin
      obtain ⟨a1, a2, a3⟩ := ih h hrs' e
      refine ⟨a1, a2, fun m hm => ?_⟩
      cases m with
      | zero => exact a2 _ (by simpa using hin)
      | succ m => have := a3 m (by simpa using hm); rwa [show i + (m + 1) = i + 1 + m by omega]
    · rename_i hin
      cases hu : initRule g f st.chart (cand st.chart) r noHeap st.chg with
      | none => simp [hu] at e
      | some q =>
        obtain ⟨h1, s1, sig⟩ := q
        simp only [hu] at e
        cases sig with
        | brk => simp at e
        | exc n => simp at e
        | done =>
          have hri : g.rules[i]? = some r := by have := hrs 0; simpa using this.symm
          obtain ⟨a1, a2, a3⟩ := ih (Run.init h hin hri hc hu) hrs' e
          refine ⟨a1, fun j hj => a2 j (by simp [hj]), fun m hm => ?_⟩
          cases m with
          | zero => exact a2 _ (by simp)
          | succ m => have := a3 m (by simpa using hm); rwa [show i + (m + 1) = i + 1 + m by omega]

theorem pop_inited {g : Cfg K} {st st' : St K} (h : Pop g st st') : st'.inited = st.inited := by
  obtain ⟨f, cand, a, _, _, e⟩ := h
  unfold popF at e
  split at e
  · simp at e
  · simp only at e
    split at e
    · simp only [Option.some.injEq, Prod.mk.injEq] at e; rw [← e.1]
    · split at e
      · simp at e
      · simp only [Option.some.injEq, Prod.mk.injEq] at e; rw [← e.1]

theorem run_forward {g : Cfg K} {D : List (Tm × K)} {st st' : St K} (h : Run g D st) (hf : ForwardChaining g st st') :
    Run g D st' ∧ ∀ i < g.rules.length, i ∈ st'.inited := by
  obtain ⟨f, cand, st1, hc, hi, hp, hag⟩ := hf
  obtain ⟨h1, _, h2⟩ := run_initAll hc h (by simp) hi
  simp only [Nat.zero_add] at h2
  clear hi hag
  induction hp with
  | refl => exact ⟨h1, h2⟩
  | tail _ hs ih => exact ⟨Run.pop ih.1 ih.2 hs, by rw [pop_inited hs]; exact ih.2⟩

/-- one or more calls of the same solver object, latest first -/
inductive Session (g : Cfg K) : List (List (SRule K)) → St K → Prop
  | start : Session g [] St.empty
  | call {datas st data st'} : Session g datas st → Call g data st st' → Session g (data :: datas) st'

/-- the solver of a data program (base.py:148) -/
def dataCfg (g : Cfg K) (data : List (SRule K)) : Cfg K := ⟨data, none, g.approx, g.inf⟩

/-- the comparison of chart values is exact -/
def Exact (g : Cfg K) : Prop := ∀ a b, g.approx a b = true → a = b

theorem dataAt_append (D D' : List (Tm × K)) (x : Tm) : dataAt (D ++ D') x = dataAt D x + dataAt D' x := by
  simp [dataAt]

theorem dataAt_reverse (D : List (Tm × K)) (x : Tm) : dataAt D.reverse x = dataAt D x := by
  induction D with
  | nil => rfl
  | cons p D ih => rw [List.reverse_cons, dataAt_append, ih, add_comm]; simp [dataAt]

theorem dataAt_dict {d : Dict Tm K} (hd : Dict.WF d) (x : Tm) : dataAt d x = value d x := by
  induction d with
  | nil => rfl
  | cons p d ih =>
    obtain ⟨y, v⟩ := p
    unfold Dict.WF at hd ih
    rw [Dict.keys_cons, List.nodup_cons] at hd
    have e : dataAt ((y, v) :: d) x = (if y = x then v else 0) + dataAt d x := by simp [dataAt]
    rw [e, ih hd.2]
    unfold value
    rw [Dict.get_cons]
    by_cases hy : y = x
    · subst hy
      have : Dict.get d y = none := (Dict.get_eq_none_iff _ _).2 hd.1
      simp [this]
    · simp [hy]

theorem forward_run {g : Cfg K} {d : St K} (h : ForwardChaining g St.empty d) :
    Run g [] d ∧ (∀ i < g.rules.length, i ∈ d.inited) ∧ d.chg.agenda = [] := by
  obtain ⟨h1, h2⟩ := run_forward Run.empty h
  obtain ⟨f, cand, st1, _, _, _, h3⟩ := h
  exact ⟨h1, h2, h3⟩

theorem session_run {g : Cfg K} {datas : List (List (SRule K))} {st : St K} (h : Session g datas st) :
    ∃ ds : List (St K), List.Forall₂ (fun data d => ForwardChaining (dataCfg g data) St.empty d) datas ds ∧
      Run g (ds.flatMap fun d => d.chart.reverse) st ∧
      (datas ≠ [] → (∀ i < g.rules.length, i ∈ st.inited) ∧ st.chg.agenda = []) := by
  induction h with
  | start => exact ⟨[], .nil, Run.empty, by simp⟩
  | call _ hc ih =>
    obtain ⟨ds, h1, h2, _⟩ := ih
    obtain ⟨f, d, st1, c1, c2, c3⟩ := hc
    refine ⟨d :: ds, .cons c1 h1, ?_, fun _ => ?_⟩
    · rw [List.flatMap_cons]
      exact (run_forward (run_loadAll h2 c2) c3).1
    · refine ⟨(run_forward (run_loadAll h2 c2) c3).2, ?_⟩
      obtain ⟨_, _, _, _, _, _, h⟩ := c3
      exact h

theorem quiet {g : Cfg K} {D : List (Tm × K)} {st : St K} (h : SInv g D st) (hq : st.chg.agenda = []) (x : Tm) :
    value st.chg.change x = 0 := by
  have : x ∉ Dict.keys st.chg.change := by rw [← h.chg.ag, hq]; simp
  unfold value
  rw [(Dict.get_eq_none_iff _ _).2 this]; rfl

theorem discard_exact {g : Cfg K} (hex : Exact g) {w : K} : ∀ {ls : List K}, (∀ δ ∈ ls, Discarded g.approx w δ) → w + ls.sum = w := by
  intro ls
  induction ls with
  | nil => simp
  | cons δ ls ih =>
    intro h
    obtain ⟨old, e, h1, h2⟩ := h δ (by simp)
    have h1 := hex _ _ h1
    rw [List.sum_cons, add_comm δ, ← add_assoc, ih fun δ hδ => h δ (by simp [hδ]), h2, add_right_comm, h1]

/-! ### Property C23 -/

/-- The sums in the equations are finite: only finitely many instances of a rule contribute. -/
theorem C23_finite {r : SRule K} (hr : Safe r) (chart : Dict Tm K) (x : Tm) :
    (Function.support (instAt r (value chart) x)).Finite :=
  (sat_finite hr.bnd).subset fun _ hθ => (instAt_support hθ).1

/-- When the agenda is empty, each item's value plus the changes that were discarded as too small to
propagate is the loaded data plus the contributions of all rule instances, for any comparison of values. -/
theorem C23_tolerance {g : Cfg K} (hr : ∀ r ∈ g.rules, Safe r) {D : List (Tm × K)} {st : St K} (h : Run g D st)
    (hall : ∀ i < g.rules.length, i ∈ st.inited) (hq : st.chg.agenda = []) {x : Tm} (hx : Kept g.prio x) :
    ∃ ls : List K, (∀ δ ∈ ls, Discarded g.approx (value st.chart x) δ) ∧
      value st.chart x + ls.sum = dataAt D x + rhs g.rules (value st.chart) x := by
  have hi := sinv_run hr h
  obtain ⟨ls, h1, h2⟩ := hi.eqn x hx
  rw [initSum_all (fun i h => by simpa using hall i h), quiet hi hq, add_zero] at h2
  exact ⟨ls, h1, by rw [← h2, add_comm]⟩

theorem run_fixpoint {g : Cfg K} (hr : ∀ r ∈ g.rules, Safe r) (hex : Exact g) {D : List (Tm × K)} {st : St K} (h : Run g D st)
    (hall : ∀ i < g.rules.length, i ∈ st.inited) (hq : st.chg.agenda = []) {x : Tm} (hx : Kept g.prio x) :
    value st.chart x = dataAt D x + rhs g.rules (value st.chart) x := by
  obtain ⟨ls, h1, h2⟩ := C23_tolerance hr h hall hq hx
  rw [discard_exact hex h1] at h2
  exact h2

/-- With exact comparison, after any number of calls of the solver (each with a data program), in any order
of popping and enumerating, the chart satisfies every equation of the program: the value of an item is the
sum of its values in the loaded data charts, which satisfy the equations of the data programs, plus the sum
over all rule instances of the product of the chart values of the body.  `K` is any semiring. -/
theorem C23_fixpoint {g : Cfg K} (hr : ∀ r ∈ g.rules, Safe r) (hex : Exact g) {datas : List (List (SRule K))} {st : St K}
    (hd : ∀ data ∈ datas, ∀ r ∈ data, Safe r) (h : Session g datas st) (hne : datas ≠ []) :
    ∃ ds : List (Tm → K), List.Forall₂ (fun data d => ∀ x, d x = rhs data d x) datas ds ∧
      ∀ x, Kept g.prio x → value st.chart x = (ds.map fun d => d x).sum + rhs g.rules (value st.chart) x := by
  obtain ⟨ds, h1, h2, h3⟩ := session_run h
  obtain ⟨h4, h5⟩ := h3 hne
  have hds : ∀ data d, data ∈ datas → ForwardChaining (dataCfg g data) St.empty d →
      Dict.WF d.chart ∧ ∀ x, value d.chart x = rhs data (value d.chart) x := by
    intro data d hm hf
    obtain ⟨f1, f2, f3⟩ := forward_run hf
    refine ⟨(sinv_run (hd data hm) f1).wf, fun x => ?_⟩
    have := run_fixpoint (g := dataCfg g data) (hd data hm) hex f1 f2 f3 (x := x) (by simp [Kept, dataCfg])
    simpa [dataAt, dataCfg] using this
  have hwf : ∀ d ∈ ds, Dict.WF d.chart := by
    clear h2 h3 h4 h5 h hne hd
    induction h1 with
    | nil => simp
    | cons a1 _ ih =>
      intro d hm
      rcases List.mem_cons.1 hm with rfl | hm
      · exact (hds _ _ (by simp) a1).1
      · exact ih (fun data d hm => hds data d (by simp [hm])) d hm
  refine ⟨ds.map fun d => value d.chart, ?_, fun x hx => ?_⟩
  · clear h2 h3 h4 h5 h hne hd hwf
    induction h1 with
    | nil => exact .nil
    | cons a1 _ ih => exact .cons (hds _ _ (by simp) a1).2 (ih fun data d hm => hds data d (by simp [hm]))
  · rw [run_fixpoint hr hex h2 h4 h5 hx, List.map_map]
    congr 1
    clear h1 h2 h3 h4 h5 h hne hds
    induction ds with
    | nil => rfl
    | cons d ds ih =>
      rw [List.flatMap_cons, dataAt_append, ih fun d hm => hwf d (by simp [hm]), dataAt_reverse, dataAt_dict (hwf d (by simp))]
      simp

/-- only items the priority function keeps are ever in the chart -/
theorem chart_kept {g : Cfg K} (hr : ∀ r ∈ g.rules, Safe r) {D : List (Tm × K)} {st : St K} (h : Run g D st) {x : Tm}
    (hx : ¬ Kept g.prio x) : value st.chart x = 0 := by
  have : x ∉ Dict.keys st.chart := fun h' => hx ((sinv_run hr h).kept x h')
  unfold value
  rw [(Dict.get_eq_none_iff _ _).2 this]; rfl

/-! ### Property C47 -/

/-- An update of an item the priority function discards leaves the change buffer and the agenda alone
(the chart is not an argument of `update` at all). -/
theorem C47_no_trace {prio : Option (Tm → Option Int)} {f : Nat} {item : Tm} {c : K} {h : Heap} (hac : Acyclic h) {s h' s'}
    (e : update prio f item c h s = some (h', s', .done)) {t : Tm} (ht : Resolves h item t) (hk : ¬ Kept prio t) :
    h' = h ∧ s'.change = s.change ∧ s'.agenda = s.agenda := by
  have hg := good_iff_acyclic.2 hac
  refine ⟨update_restores _ _ _ _ _ e, ?_⟩
  unfold update at e
  split at e
  · simp at e
  · rename_i t' eg ed
    have := resolves_unique ht (deref_resolves ed)
    subst this
    split at e
    · simp only [Option.some.injEq, Prod.mk.injEq, and_true] at e
      obtain ⟨_, rfl⟩ := e
      exact ⟨rfl, rfl⟩
    · rename_i p hp
      rw [← prioOf_none (n := s.pushes + 1)] at hk
      rw [hk] at hp; cases hp
  · simp at e

/-- A discarded item never gets into the chart, the change buffer or the agenda. -/
theorem C47_absent {g : Cfg K} (hr : ∀ r ∈ g.rules, Safe r) {D : List (Tm × K)} {st : St K} (h : Run g D st) {x : Tm}
    (hx : ¬ Kept g.prio x) :
    Dict.get st.chart x = none ∧ Dict.get st.chg.change x = none ∧ Dict.get st.chg.agenda x = none := by
  have hi := sinv_run hr h
  refine ⟨(Dict.get_eq_none_iff _ _).2 fun h' => hx (hi.kept x h'), (Dict.get_eq_none_iff _ _).2 fun h' => hx (hi.chg.kept x h'),
    (Dict.get_eq_none_iff _ _).2 fun h' => hx (hi.chg.kept x ((hi.chg.ag x).1 h'))⟩

open Classical in
/-- A completed run solves the program in which the equations of the discarded items are replaced by `x = 0`. -/
theorem C47_solution {g : Cfg K} (hr : ∀ r ∈ g.rules, Safe r) (hex : Exact g) {D : List (Tm × K)} {st : St K} (h : Run g D st)
    (hall : ∀ i < g.rules.length, i ∈ st.inited) (hq : st.chg.agenda = []) (x : Tm) :
    value st.chart x = if Kept g.prio x then dataAt D x + rhs g.rules (value st.chart) x else 0 := by
  split
  · rename_i hx; exact run_fixpoint hr hex h hall hq hx
  · rename_i hx; exact chart_kept hr h hx

/-! ### Property C24 -/

section Order
variable [PartialOrder K] [IsOrderedRing K]

/-- `v` is a solution (or more than one: a "pre-solution") of the equations of the kept items: every finite part of
the right-hand side is below the left-hand side.  In a semiring with infinite sums every solution is one. -/
def PreSol (rules : List (SRule K)) (kept : Tm → Prop) (data : Tm → K) (v : Tm → K) : Prop :=
  ∀ x, kept x → ∀ F : SRule K → Finset (Nat → Tm), (rules.map fun r => ∑ θ ∈ F r, instAt r v x θ).sum + data x ≤ v x

theorem instVal_mono {v w : Tm → K} (h0 : ∀ k : K, 0 ≤ k) (h : ∀ x, v x ≤ w x) (θ : Nat → Tm) : ∀ b : List (BLit K),
    instVal v b θ ≤ instVal w b θ := by
  intro b
  unfold instVal
  induction b with
  | nil => simp
  | cons z b ih =>
    simp only [List.map_cons, List.prod_cons]
    refine mul_le_mul ?_ ih (h0 _) (h0 _)
    cases z with
    | sub t => exact h _
    | val k => exact le_refl _
    | eq x y => exact le_refl _
    | cmp o x y => exact le_refl _

theorem instAt_mono {v w : Tm → K} (h0 : ∀ k : K, 0 ≤ k) (h : ∀ x, v x ≤ w x) (r : SRule K) (x : Tm) (θ : Nat → Tm) :
    instAt r v x θ ≤ instAt r w x θ := by
  unfold instAt
  split
  · exact instVal_mono h0 h θ _
  · exact le_refl _

theorem initSum_le (h0 : ∀ k : K, 0 ≤ k) {chart : Dict Tm K} {v : Tm → K} (h : ∀ x, value chart x ≤ v x) {ini : List Nat} {x : Tm}
    {F : SRule K → Finset (Nat → Tm)} : ∀ {rules : List (SRule K)} {n : Nat},
    (∀ r ∈ rules, Function.support (instAt r (value chart) x) ⊆ ↑(F r)) →
    initSum rules n ini (value chart) x ≤ (rules.map fun r => ∑ θ ∈ F r, instAt r v x θ).sum := by
  intro rules
  induction rules with
  | nil => intro n _; simp [initSum]
  | cons r rules ih =>
    intro n hF
    have ih := ih (n := n + 1) fun r hr => hF r (by simp [hr])
    unfold initSum at *
    rw [List.zipIdx_cons, List.map_cons, List.sum_cons, List.map_cons, List.sum_cons]
    refine add_le_add ?_ ih
    split
    · unfold contrib
      rw [finsum_eq_sum_of_support_subset _ (hF r (by simp))]
      exact Finset.sum_le_sum fun θ _ => instAt_mono h0 h r x θ
    · exact Finset.sum_nonneg fun θ _ => h0 _

theorem list_sum_nonneg (h0 : ∀ k : K, 0 ≤ k) (l : List K) : 0 ≤ l.sum := h0 _

theorem below_step (h0 : ∀ k : K, 0 ≤ k) {g : Cfg K} (hr : ∀ r ∈ g.rules, Safe r) {D : List (Tm × K)} {st : St K} (hi : SInv g D st)
    {v : Tm → K} (hv : PreSol g.rules (Kept g.prio) (dataAt D) v) (hc : ∀ x, value st.chart x ≤ v x) {x : Tm} (hx : Kept g.prio x) :
    value st.chart x + value st.chg.change x ≤ v x := by
  classical
  obtain ⟨ls, _, h2⟩ := hi.eqn x hx
  let F : SRule K → Finset (Nat → Tm) := fun r => if h : Safe r then (C23_finite h st.chart x).toFinset else ∅
  have hF : ∀ r ∈ g.rules, Function.support (instAt r (value st.chart) x) ⊆ ↑(F r) := by
    intro r hrm
    simp only [F, hr r hrm, dif_pos, Set.Finite.coe_toFinset]
    exact fun _ h => h
  have h3 := initSum_le (ini := st.inited) (n := 0) h0 hc hF
  calc value st.chart x + value st.chg.change x ≤ value st.chart x + value st.chg.change x + ls.sum := le_add_of_nonneg_right (h0 _)
    _ = initSum g.rules 0 st.inited (value st.chart) x + dataAt D x := h2.symm
    _ ≤ (g.rules.map fun r => ∑ θ ∈ F r, instAt r v x θ).sum + dataAt D x := add_le_add_left h3 _
    _ ≤ v x := hv x hx F

/-- At every moment of a run every value in the chart, even together with its pending change, is bounded by
the value in every solution of the equations: any comparison of values, any schedule. -/
theorem C24_below (h0 : ∀ k : K, 0 ≤ k) {g : Cfg K} (hr : ∀ r ∈ g.rules, Safe r) {D : List (Tm × K)} {st : St K} (h : Run g D st)
    {v : Tm → K} (hv : PreSol g.rules (Kept g.prio) (dataAt D) v) :
    ∀ x, value st.chart x ≤ v x ∧ (Kept g.prio x → value st.chart x + value st.chg.change x ≤ v x) := by
  have key : ∀ x, value st.chart x ≤ v x := by
    induction h with
    | empty => intro x; simpa [value, St.empty] using h0 _
    | @load D st f y w h' s' hrun e ih =>
      refine ih ?_
      intro x hx F
      refine le_trans (add_le_add_right ?_ _) (hv x hx F)
      simp only [dataAt, List.map_cons, List.sum_cons]
      exact le_add_of_nonneg_left (h0 _)
    | init _ _ _ _ _ ih => exact ih hv
    | @pop D st st' hrun hall hp ih =>
      have hb := fun x hx => below_step h0 hr (sinv_run hr hrun) hv (ih hv) (x := x) hx
      have hi := sinv_run hr hrun
      obtain ⟨f, cand, a, hc, ha, e⟩ := hp
      have hac := (hi.chg.ag a).1 ha
      obtain ⟨Δ, hΔ⟩ := (Dict.mem_keys_iff_get _ _).1 hac
      unfold popF at e
      simp only [hΔ] at e
      split at e
      · simp only [Option.some.injEq, Prod.mk.injEq, and_true] at e
        subst e; exact ih hv
      · split at e
        · simp at e
        · simp only [Option.some.injEq, Prod.mk.injEq] at e
          obtain ⟨rfl, _⟩ := e
          intro x
          by_cases hx : x = a
          · subst hx
            have := hb x (hi.chg.kept x hac)
            have e2 : value st.chg.change x = Δ := by simp [value, hΔ]
            rw [e2] at this
            simpa [value, Dict.get_set] using this
          · have := ih hv x
            simpa [value, Dict.get_set, Ne.symm hx] using this
  exact fun x => ⟨key x, fun hx => below_step h0 hr (sinv_run hr h) hv key hx⟩

/-- a chart satisfying the equations is a solution in the sense of `PreSol` -/
theorem presol_of_fixpoint (h0 : ∀ k : K, 0 ≤ k) {rules : List (SRule K)} (hr : ∀ r ∈ rules, Safe r) {kept : Tm → Prop} {data : Tm → K}
    {chart : Dict Tm K} (h : ∀ x, kept x → value chart x = data x + rhs rules (value chart) x) :
    PreSol rules kept data (value chart) := by
  classical
  intro x hx F
  rw [h x hx, add_comm]
  refine add_le_add_right ?_ _
  unfold rhs
  clear h
  induction rules with
  | nil => simp
  | cons r rules ih =>
    simp only [List.map_cons, List.sum_cons]
    refine add_le_add ?_ (ih fun r h => hr r (by simp [h]))
    unfold contrib
    rw [finsum_eq_sum_of_support_subset (s := F r ∪ (C23_finite (hr r (by simp)) chart x).toFinset) _ (by
      intro θ hθ; simp only [Finset.coe_union, Set.Finite.coe_toFinset]; exact .inr hθ)]
    exact Finset.sum_le_sum_of_subset_of_nonneg Finset.subset_union_left fun θ _ _ => h0 _

theorem run_schedule (h0 : ∀ k : K, 0 ≤ k) {g g' : Cfg K} (hr : ∀ r ∈ g.rules, Safe r) (hex : Exact g) (hex' : Exact g')
    (hrules : g'.rules = g.rules) (hkept : ∀ x, Kept g'.prio x ↔ Kept g.prio x)
    {D D' : List (Tm × K)} (hD : ∀ x, dataAt D' x = dataAt D x) {st st' : St K} (h : Run g D st) (h' : Run g' D' st')
    (hall : ∀ i < g.rules.length, i ∈ st.inited) (hq : st.chg.agenda = [])
    (hall' : ∀ i < g'.rules.length, i ∈ st'.inited) (hq' : st'.chg.agenda = []) (x : Tm) :
    value st.chart x = value st'.chart x := by
  have hr' : ∀ r ∈ g'.rules, Safe r := by rw [hrules]; exact hr
  have p1 := presol_of_fixpoint h0 hr (kept := Kept g.prio) (data := dataAt D) fun x hx => run_fixpoint hr hex h hall hq hx
  have p2 := presol_of_fixpoint h0 hr' (kept := Kept g'.prio) (data := dataAt D') fun x hx => run_fixpoint hr' hex' h' hall' hq' hx
  refine le_antisymm ((C24_below h0 hr h ?_ x).1) ((C24_below h0 hr' h' ?_ x).1)
  · intro x hx F
    have := p2 x ((hkept x).2 hx) F
    rwa [hD, hrules] at this
  · intro x hx F
    have := p1 x ((hkept x).1 hx) F
    rwa [← hD, ← hrules] at this

/-- A completed run with exact comparison yields the least solution: a solution below every other one. -/
theorem C24_least (h0 : ∀ k : K, 0 ≤ k) {g : Cfg K} (hr : ∀ r ∈ g.rules, Safe r) (hex : Exact g) {D : List (Tm × K)} {st : St K}
    (h : Run g D st) (hall : ∀ i < g.rules.length, i ∈ st.inited) (hq : st.chg.agenda = []) :
    PreSol g.rules (Kept g.prio) (dataAt D) (value st.chart) ∧
    (∀ x, Kept g.prio x → value st.chart x = dataAt D x + rhs g.rules (value st.chart) x) ∧
    ∀ v, PreSol g.rules (Kept g.prio) (dataAt D) v → ∀ x, value st.chart x ≤ v x :=
  ⟨presol_of_fixpoint h0 hr fun _ hx => run_fixpoint hr hex h hall hq hx, fun _ hx => run_fixpoint hr hex h hall hq hx,
    fun _ hv x => (C24_below h0 hr h hv x).1⟩

/-- Two solvers for the same program called with the same data programs end with the same chart, whatever
their priorities (as long as they discard the same items), agenda types and enumeration orders. -/
theorem C24_schedule (h0 : ∀ k : K, 0 ≤ k) {g g' : Cfg K} (hr : ∀ r ∈ g.rules, Safe r) (hex : Exact g) (hex' : Exact g')
    (hrules : g'.rules = g.rules) (hkept : ∀ x, Kept g'.prio x ↔ Kept g.prio x)
    {datas : List (List (SRule K))} (hd : ∀ data ∈ datas, ∀ r ∈ data, Safe r) {st st' : St K}
    (h : Session g datas st) (h' : Session g' datas st') (x : Tm) : value st.chart x = value st'.chart x := by
  by_cases hne : datas = []
  · subst hne; cases h; cases h'; rfl
  obtain ⟨ds, h1, h2, h3⟩ := session_run h
  obtain ⟨ds', h1', h2', h3'⟩ := session_run h'
  refine run_schedule h0 hr hex hex' hrules hkept ?_ h2 h2' (h3 hne).1 (h3 hne).2 (h3' hne).1 (h3' hne).2 x
  intro y
  clear h2 h3 h2' h3' h h' hne
  induction h1 generalizing ds' with
  | nil => cases h1'; rfl
  | cons a1 _ ih =>
    cases h1' with
    | cons a1' b1' =>
      rw [List.flatMap_cons, List.flatMap_cons, dataAt_append, dataAt_append, ih (fun data hm => hd data (by simp [hm])) _ b1',
        dataAt_reverse, dataAt_reverse]
      congr 1
      have hdr := hd _ List.mem_cons_self
      obtain ⟨f1, f2, f3⟩ := forward_run a1
      obtain ⟨f1', f2', f3'⟩ := forward_run a1'
      rw [dataAt_dict (sinv_run (g := dataCfg _ _) hdr f1).wf, dataAt_dict (sinv_run (g := dataCfg _ _) hdr f1').wf]
      exact (run_schedule (g := dataCfg g _) (g' := dataCfg g' _) h0 hdr hex hex' rfl (by simp [Kept, dataCfg]) (fun _ => rfl) f1 f1' f2 f3 f2' f3' y).symm

end Order

/-! ### Property C29 -/

/-- a data program of facts `item += value` -/
def facts (F : List (Tm × K)) : List (SRule K) := F.map fun p => ⟨p.1, [.val p.2]⟩

theorem fact_safe {F : List (Tm × K)} (hF : ∀ p ∈ F, Ground p.1) : ∀ r ∈ facts F, Safe r := by
  intro r hr
  obtain ⟨p, hp, rfl⟩ := List.mem_map.1 hr
  refine ⟨?_, by simp⟩
  rintro n (hn | ⟨z, hz, hn⟩)
  · have := hF p hp
    unfold Ground at this
    rw [this] at hn; simp at hn
  · simp only [List.mem_singleton] at hz
    subst hz; simp [litVars] at hn

theorem rhs_facts {F : List (Tm × K)} (hF : ∀ p ∈ F, Ground p.1) (v : Tm → K) (x : Tm) : rhs (facts F) v x = dataAt F x := by
  unfold rhs facts dataAt
  rw [List.map_map]
  congr 1
  refine List.map_congr_left fun p hp => ?_
  have hg := hF p hp
  have hno : ∀ n, ¬ InRule (⟨p.1, [.val p.2]⟩ : SRule K) n := by
    rintro n (hn | ⟨z, hz, hn⟩)
    · unfold Ground at hg; simp only at hn; rw [hg] at hn; simp at hn
    · simp only [List.mem_singleton] at hz
      subst hz; simp [litVars] at hn
  simp only [Function.comp, contrib]
  rw [finsum_eq_single _ Tm.var]
  · unfold instAt
    have : Tm.var ∈ GSub (⟨p.1, [.val p.2]⟩ : SRule K) := ⟨fun n hn => absurd hn (hno n), fun _ _ => rfl⟩
    simp [this, sub_id, instVal, litVal]
  · intro θ hθ
    unfold instAt
    rw [if_neg]
    rintro ⟨h1, _⟩
    exact hθ (funext fun n => h1.2 n (hno n))

theorem facts_sum {fss : List (List (Tm × K))} {ds : List (Tm → K)} (hF : ∀ F ∈ fss, ∀ p ∈ F, Ground p.1)
    (h : List.Forall₂ (fun data d => ∀ x, d x = rhs data d x) (fss.map facts) ds) (x : Tm) :
    (ds.map fun d => d x).sum = dataAt fss.flatten x := by
  induction fss generalizing ds with
  | nil => cases h; rfl
  | cons F fss ih =>
    cases h with
    | cons h1 h2 =>
      rw [List.map_cons, List.sum_cons, ih (fun F h => hF F (by simp [h])) h2, h1, rhs_facts (hF F (by simp)),
        List.flatten_cons, dataAt_append]

/-- Facts loaded in any number of successive calls: the final chart satisfies the equations with all the facts together. -/
theorem C29_incremental {g : Cfg K} (hr : ∀ r ∈ g.rules, Safe r) (hex : Exact g) {fss : List (List (Tm × K))}
    (hF : ∀ F ∈ fss, ∀ p ∈ F, Ground p.1) {st : St K} (h : Session g (fss.map facts) st) (hne : fss ≠ []) {x : Tm} (hx : Kept g.prio x) :
    value st.chart x = dataAt fss.flatten x + rhs g.rules (value st.chart) x := by
  obtain ⟨ds, h1, h2⟩ := C23_fixpoint hr hex (datas := fss.map facts) (by
    intro data hd
    obtain ⟨F, hFm, rfl⟩ := List.mem_map.1 hd
    exact fact_safe (hF F hFm)) h (by simpa using hne)
  rw [h2 x hx, facts_sum hF h1]

/-- In an ordered semiring the chart after any number of calls is the chart of one call with all the facts. -/
theorem C29_one_call [PartialOrder K] [IsOrderedRing K] (h0 : ∀ k : K, 0 ≤ k) {g : Cfg K} (hr : ∀ r ∈ g.rules, Safe r) (hex : Exact g)
    {fss : List (List (Tm × K))} (hF : ∀ F ∈ fss, ∀ p ∈ F, Ground p.1) {st st' : St K} (h : Session g (fss.map facts) st) (hne : fss ≠ [])
    (h' : Session g [facts fss.flatten] st') (x : Tm) : value st.chart x = value st'.chart x := by
  have hF' : ∀ F ∈ [fss.flatten], ∀ p ∈ F, Ground p.1 := by
    intro F hF1 p hp
    simp only [List.mem_singleton] at hF1
    subst hF1
    obtain ⟨F, h1, h2⟩ := List.mem_flatten.1 hp
    exact hF F h1 p h2
  obtain ⟨ds, h1, h2, h3⟩ := session_run h
  obtain ⟨ds', h1', h2', h3'⟩ := session_run h'
  have hne1 : fss.map facts ≠ [] := by simpa using hne
  have data : ∀ {fss : List (List (Tm × K))} {ds : List (St K)}, (∀ F ∈ fss, ∀ p ∈ F, Ground p.1) →
      List.Forall₂ (fun data d => ForwardChaining (dataCfg g data) St.empty d) (fss.map facts) ds →
      ∀ y, dataAt (ds.flatMap fun d => d.chart.reverse) y = dataAt fss.flatten y := by
    intro fss
    induction fss with
    | nil => intro ds _ h y; cases h; rfl
    | cons F fss ih =>
      intro ds hF h y
      cases h with
      | cons a1 a2 =>
        obtain ⟨f1, f2, f3⟩ := forward_run a1
        have hs := fact_safe (hF F (by simp))
        have := run_fixpoint (g := dataCfg g (facts F)) hs hex f1 f2 f3 (x := y) (by simp [Kept, dataCfg])
        rw [List.flatMap_cons, dataAt_append, dataAt_reverse, dataAt_dict (sinv_run (g := dataCfg g (facts F)) hs f1).wf, this,
          ih (fun F h => hF F (by simp [h])) a2, List.flatten_cons, dataAt_append]
        simp only [dataCfg]
        rw [rhs_facts (hF F (by simp))]
        simp [dataAt]
  refine run_schedule h0 hr hex hex rfl (fun _ => Iff.rfl) ?_ h2 h2' (h3 hne1).1 (h3 hne1).2 (h3' (by simp)).1 (h3' (by simp)).2 x
  intro y
  rw [data hF h1, data (fss := [fss.flatten]) hF' h1']
  simp

/-! ### The chart's index offers lawful candidates -/

/-- the candidates `Chart` offers, in any reachable state of its indexes -/
def indexCands (c : Chart K) (q : Tm) : List Tm := match c.cands q with
  | some (_, xs) => xs
  | none => []

theorem index_candOk {c : Chart K} (hc : Chart.Inv c) : CandOk c.chart (indexCands c) := by
  intro f as
  obtain ⟨c', xs, e, _, _, h1, h2⟩ := Chart.cands_ok hc (q := .app (.con f :: as)) rfl
  have : indexCands c (.app (.con f :: as)) = xs := by simp [indexCands, e]
  rw [this]
  refine ⟨h1, fun x hx => ((h2 x).1 hx).1, ?_⟩
  rintro x hx ⟨σ, hσ⟩
  have hx' : x = .app (.con f :: as.map (sub σ)) := by rw [← hσ]; simp
  subst hx'
  obtain ⟨k1, k2⟩ := Chart.key_instance hσ
  exact (h2 _).2 ⟨hx, _, rfl, k1, k2⟩

/-- building every index afresh -/
theorem index_lawful : LawfulCand (K := K) fun chart => indexCands ⟨chart, []⟩ := by
  intro chart f as _ _
  have hok := Chart.buildIndex_ok chart (.con f) as.length (Chart.qmode as) (Chart.keyAt as (Chart.qmode as))
  have e : indexCands ⟨chart, []⟩ (.app (.con f :: as)) =
      (Dict.get (Chart.buildIndex chart (.con f) as.length (Chart.qmode as)) (Chart.keyAt as (Chart.qmode as))).getD [] := rfl
  simp only [e]
  refine ⟨hok.1, fun x hx => ((hok.2 x).1 hx).1, ?_⟩
  rintro x hx ⟨σ, hσ⟩
  have hx' : x = .app (.con f :: as.map (sub σ)) := by rw [← hσ]; simp
  subst hx'
  obtain ⟨k1, k2⟩ := Chart.key_instance hσ
  exact (hok.2 _).2 ⟨hx, _, rfl, k1, k2⟩

/-! ### Concrete cases -/

/-- run the agenda, popping its `pick`-th entry -/
def execPops (g : Cfg K) (f : Nat) (pick : Nat) : Nat → St K → Option (St K)
  | 0, st => if st.chg.agenda.isEmpty then some st else none
  | n + 1, st =>
    match (Dict.keys st.chg.agenda)[pick % st.chg.agenda.length]? with
    | none => if st.chg.agenda.isEmpty then some st else none
    | some a => match popF g f (fun chart => indexCands ⟨chart, []⟩) st a with
      | some (st', .done) => execPops g f pick n st'
      | _ => none

def execForward (g : Cfg K) (f pick n : Nat) (st : St K) : Option (St K) :=
  match initAll g f (fun chart => indexCands ⟨chart, []⟩) g.rules 0 st with
  | some (st1, .done) => execPops g f pick n st1
  | _ => none

def execCall (g : Cfg K) (f pick n : Nat) (data : List (SRule K)) (st : St K) : Option (St K) :=
  match execForward (dataCfg g data) f pick n St.empty with
  | none => none
  | some d => match loadAll g f d.chart st with
    | some (st1, .done) => execForward g f pick n st1
    | _ => none

theorem execPops_sound {g : Cfg K} {f pick : Nat} : ∀ {n : Nat} {st st' : St K}, execPops g f pick n st = some st' →
    Relation.ReflTransGen (Pop g) st st' ∧ st'.chg.agenda = [] := by
  intro n
  induction n with
  | zero =>
    intro st st' e
    simp only [execPops] at e
    split at e
    · rename_i h; cases e; exact ⟨.refl, by simpa using h⟩
    · cases e
  | succ n ih =>
    intro st st' e
    simp only [execPops] at e
    split at e
    · split at e
      · rename_i h; cases e; exact ⟨.refl, by simpa using h⟩
      · cases e
    · rename_i a ha
      split at e
      · rename_i st1 hp
        obtain ⟨h1, h2⟩ := ih e
        exact ⟨.head ⟨f, _, a, index_lawful, List.mem_of_getElem? ha, hp⟩ h1, h2⟩
      · cases e

theorem execForward_sound {g : Cfg K} {f pick n : Nat} {st st' : St K} (e : execForward g f pick n st = some st') :
    ForwardChaining g st st' := by
  unfold execForward at e
  split at e
  · rename_i st1 h1
    obtain ⟨h2, h3⟩ := execPops_sound e
    exact ⟨f, _, st1, index_lawful, h1, h2, h3⟩
  · cases e

theorem execCall_sound {g : Cfg K} {f pick n : Nat} {data : List (SRule K)} {st st' : St K} (e : execCall g f pick n data st = some st') :
    Call g data st st' := by
  unfold execCall at e
  split at e
  · cases e
  · rename_i d hd
    split at e
    · rename_i st1 h1
      exact ⟨f, d, st1, execForward_sound hd, h1, execForward_sound e⟩
    · cases e

end Runs

section Examples

private def ct (s : String) : Tm := .con (.str s)
private def edge (x y : Tm) : Tm := .app [ct "edge", x, y]
private def path (x y : Tm) : Tm := .app [ct "path", x, y]
private def goal : Tm := .app [ct "goal"]
private def X : Tm := .var 0
private def Y : Tm := .var 1
private def Z : Tm := .var 2

/-- `path(X,Y) += edge(X,Y).  path(X,Z) += path(X,Y) * edge(Y,Z).  goal += path(X,Y) * path(X,Y) * (X = "a").` -/
private def prog : List (SRule ℕ) :=
  [⟨path X Y, [.sub (edge X Y)]⟩, ⟨path X Z, [.sub (path X Y), .sub (edge Y Z)]⟩,
   ⟨goal, [.sub (path X Y), .sub (path X Y), .eq X (ct "a")]⟩]

private def cfg : Cfg ℕ := ⟨prog, none, fun a b => a == b, 0⟩

/-- two edges from `a` to `b` (weights 1 and 1), one from `b` to `c` -/
private def d1 : List (Tm × ℕ) := [(edge (ct "a") (ct "b"), 1), (edge (ct "a") (ct "b"), 1), (edge (ct "b") (ct "c"), 3)]
private def d2 : List (Tm × ℕ) := [(edge (ct "a") (ct "c"), 5)]

theorem prog_safe : ∀ r ∈ cfg.rules, Safe r := by
  intro r hr
  simp only [cfg, prog, List.mem_cons, List.not_mem_nil, or_false] at hr
  rcases hr with rfl | rfl | rfl
  · refine ⟨fun n hn => .sub (t := edge X Y) (by simp) ?_, ?_⟩
    · rcases hn with hn | ⟨z, hz, hn⟩
      · simpa [path, edge, X, Y, ct] using hn
      · simp only [List.mem_singleton] at hz; subst hz; exact hn
    · intro t ht; simp only [List.mem_singleton, BLit.sub.injEq] at ht; subst ht; exact ⟨_, _, rfl⟩
  · refine ⟨fun n hn => ?_, ?_⟩
    · have : n = 0 ∨ n = 1 ∨ n = 2 := by
        rcases hn with hn | ⟨z, hz, hn⟩
        · simp [path, X, Z, ct] at hn; omega
        · simp only [List.mem_cons, List.not_mem_nil, or_false] at hz
          rcases hz with rfl | rfl <;> simp [litVars, path, edge, X, Y, Z, ct] at hn <;> omega
      rcases this with rfl | rfl | rfl
      · exact .sub (t := path X Y) (by simp) (by simp [path, X, Y, ct])
      · exact .sub (t := path X Y) (by simp) (by simp [path, X, Y, ct])
      · exact .sub (t := edge Y Z) (by simp) (by simp [edge, Y, Z, ct])
    · intro t ht
      simp only [List.mem_cons, BLit.sub.injEq, List.not_mem_nil, or_false] at ht
      rcases ht with rfl | rfl <;> exact ⟨_, _, rfl⟩
  · refine ⟨fun n hn => .sub (t := path X Y) (by simp) ?_, ?_⟩
    · rcases hn with hn | ⟨z, hz, hn⟩
      · simp [goal, ct] at hn
      · simp only [List.mem_cons, List.not_mem_nil, or_false] at hz
        rcases hz with rfl | rfl | rfl <;> simp [litVars, path, X, Y, ct] at hn ⊢ <;> omega
    · intro t ht
      simp only [List.mem_cons, BLit.sub.injEq, List.not_mem_nil, or_false] at ht
      rcases ht with rfl | rfl | h
      · exact ⟨_, _, rfl⟩
      · exact ⟨_, _, rfl⟩
      · cases h

theorem cfg_exact : Exact cfg := by intro a b h; simpa [cfg] using h

/-- both data sets in one call, and one after the other with another pop order -/
private def run1 := execCall cfg 40 0 60 (facts (d1 ++ d2)) St.empty
private def run2 := (execCall cfg 40 3 60 (facts d1) St.empty).bind (execCall cfg 40 2 60 (facts d2))

private def table : List (Tm × ℕ) := [(edge (ct "a") (ct "b"), 2), (edge (ct "b") (ct "c"), 3), (edge (ct "a") (ct "c"), 5),
  (path (ct "a") (ct "b"), 2), (path (ct "b") (ct "c"), 3), (path (ct "a") (ct "c"), 11), (goal, 125)]

-- goal = 2*2 + 11*11
example : (run1.map fun st => (st.chart.length, table.all fun p => value st.chart p.1 == p.2)) = some (7, true) := by decide +kernel
example : (run2.map fun st => (st.chart.length, table.all fun p => value st.chart p.1 == p.2)) = some (7, true) := by decide +kernel

-- so the hypotheses of C23, C24 and C29 are met by a recursive program with a repeated subgoal
example : ∃ st st', Session cfg [facts (d1 ++ d2)] st ∧ Session cfg [facts d2, facts d1] st' ∧
    value st.chart goal = 125 ∧ value st'.chart goal = 125 := by
  have h1 : run1.isSome = true := by decide +kernel
  have h2 : run2.isSome = true := by decide +kernel
  obtain ⟨st, e1⟩ := Option.isSome_iff_exists.1 h1
  obtain ⟨st', e2⟩ := Option.isSome_iff_exists.1 h2
  have v1 : run1.map (fun st => value st.chart goal) = some 125 := by decide +kernel
  have v2 : run2.map (fun st => value st.chart goal) = some 125 := by decide +kernel
  rw [e1] at v1
  rw [e2] at v2
  obtain ⟨st2, e3, e4⟩ := Option.bind_eq_some_iff.1 e2
  exact ⟨st, st', .call .start (execCall_sound e1), .call (.call .start (execCall_sound e3)) (execCall_sound e4),
    by simpa using v1, by simpa using v2⟩

/-- the same program with `path(a,b)` discarded -/
private def cfgP : Cfg ℕ := ⟨prog, some fun t => if t = path (ct "a") (ct "b") then none else some 0, fun a b => a == b, 0⟩

private def run3 := execCall cfgP 40 0 60 (facts (d1 ++ d2)) St.empty

example : (run3.map fun st => (value st.chart (path (ct "a") (ct "b")), value st.chart (path (ct "a") (ct "c")), value st.chart goal)) =
    some (0, 5, 25) := by decide +kernel

-- a comparison: `big(X) += edge(X,Y) * (X < Y)` with `<` on strings
private def progC : List (SRule ℕ) := [⟨.app [ct "big", X], [.sub (edge X Y), .cmp (fun x y => x = ct "a" && y = ct "c") X Y]⟩]

example : ((execCall ⟨progC, none, fun a b => a == b, 0⟩ 40 0 60 (facts (d1 ++ d2)) St.empty).map fun st =>
    (value st.chart (.app [ct "big", ct "a"]), value st.chart (.app [ct "big", ct "b"]))) = some (5, 0) := by decide +kernel

-- an unbound head variable raises `SolverLimitation`
example : (initRule ⟨[], none, fun a b => a == b, 0⟩ 40 [] (fun _ => []) ⟨.app [ct "p", X], [.val (1 : ℕ)]⟩ noHeap ⟨[], [], 0⟩).map (·.2.2) =
    some limitation := by decide +kernel

end Examples

end Solver
end Verif
