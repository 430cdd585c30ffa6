/-
Properties C11 and C13: anti-unification and `DisjointEstimate`.
-/
import Verif.TermSetsThm

set_option linter.unusedSectionVars false
set_option linter.unusedSimpArgs false

namespace Verif
open Tm Order

namespace Gen

/-- ghost record: for each variable of the output, the pair of subterms it stands for -/
abbrev Rec := Nat → Option (Tm × Tm)
def Rec.l (M : Rec) (n : Nat) : Tm := match M n with | some p => p.1 | none => .var n
def Rec.r (M : Rec) (n : Nat) : Tm := match M n with | some p => p.2 | none => .var n
def Rec.le (M M' : Rec) : Prop := ∀ n p, M n = some p → M' n = some p

/-- `z` generalizes `x` and `y` as recorded -/
def Is (M : Rec) (z x y : Tm) : Prop := (∀ n ∈ vars z, M n ≠ none) ∧ z.sub M.l = x ∧ z.sub M.r = y

theorem Is.mono {M M' : Rec} (h : M.le M') {z x y : Tm} (hz : Is M z x y) : Is M' z x y := by
  obtain ⟨h1, h2, h3⟩ := hz
  have e : ∀ n ∈ vars z, M' n = M n := fun n hn => by
    cases e : M n with
    | none => exact absurd e (h1 n hn)
    | some p => exact h n p e
  refine ⟨fun n hn => by rw [e n hn]; exact h1 n hn, ?_, ?_⟩
  · rw [← h2]; exact sub_congr fun n hn => by simp [Rec.l, e n hn]
  · rw [← h3]; exact sub_congr fun n hn => by simp [Rec.r, e n hn]

theorem Rec.le.refl (M : Rec) : M.le M := fun _ _ h => h
theorem Rec.le.trans {M M' M'' : Rec} (h : M.le M') (h' : M'.le M'') : M.le M'' := fun n p e => h' n p (h n p e)

structure Ctx (fv : Nat → Nat) (A B : Set Nat) (k0 : Nat) : Prop where
  inj : Function.Injective fv
  disj : ∀ n ∈ A, n ∉ B
  fa : ∀ j ≥ k0, fv j ∉ A
  fb : ∀ j ≥ k0, fv j ∉ B

structure Inv (fv : Nat → Nat) (A B : Set Nat) (k0 : Nat) (g : GS) (M : Rec) : Prop where
  k : k0 ≤ g.k
  a0 : ∀ n ∈ A, g.s1 (.var n) = none → M n = none
  a1 : ∀ n ∈ A, ∀ t, g.s1 (.var n) = some t → M n = some (.var n, t) ∨ ∃ j ≥ k0, t = .var (fv j)
  b0 : ∀ n ∈ B, g.s2 (.var n) = none → M n = none
  b1 : ∀ n ∈ B, ∀ t, g.s2 (.var n) = some t → M n = some (t, .var n) ∨ ∃ j ≥ k0, t = .var (fv j)
  fr : ∀ j ≥ g.k, M (fv j) = none
  a2 : ∀ n ∈ A, ∀ p, M n = some p → p.1 = .var n
  b2 : ∀ n ∈ B, ∀ p, M n = some p → p.2 = .var n
  dom : ∀ n p, M n = some p → n ∈ A ∨ n ∈ B ∨ ∃ j, k0 ≤ j ∧ j < g.k ∧ n = fv j

def Rec.set (M : Rec) (n : Nat) (p : Tm × Tm) : Rec := fun m => if m = n then some p else M m

theorem Rec.le_set {M : Rec} {n : Nat} {p} (h : M n = none) : M.le (M.set n p) := by
  intro m q e
  simp only [Rec.set]; split
  · subst m; simp [h] at e
  · exact e

theorem is_set {M : Rec} {n : Nat} {x y : Tm} : Is (M.set n (x, y)) (.var n) x y := by
  refine ⟨by simp [Rec.set], by simp [Rec.set, Rec.l], by simp [Rec.set, Rec.r]⟩

variable {fv : Nat → Nat} {A B : Set Nat} {k0 : Nat}

/-- allocating a fresh variable for the pair `(x, y)` while memoizing it for the variable `n` on the left -/
theorem fresh1 (C : Ctx fv A B k0) {g : GS} {M : Rec} (hi : Inv fv A B k0 g M) (n : Nat) (x y : Tm) :
    Inv fv A B k0 ((g.set1 (.var n) (.var (fv g.k))).bump) (M.set (fv g.k) (x, y)) ∧ M.le (M.set (fv g.k) (x, y)) := by
  have hA : ∀ m ∈ A, m ≠ fv g.k := fun m hm h => C.fa g.k hi.k (h ▸ hm)
  have hB : ∀ m ∈ B, m ≠ fv g.k := fun m hm h => C.fb g.k hi.k (h ▸ hm)
  refine ⟨⟨?_, ?_, ?_, ?_, ?_, ?_, ?_, ?_, ?_⟩, Rec.le_set (hi.fr _ (le_refl _))⟩
  · simp only [GS.bump, GS.set1]; have := hi.k; omega
  · intro m hm e
    simp only [GS.bump, GS.set1] at e
    split at e
    · simp at e
    · simp only [Rec.set, if_neg (hA m hm)]; exact hi.a0 m hm e
  · intro m hm t e
    simp only [GS.bump, GS.set1] at e
    split at e
    · simp only [Option.some.injEq] at e; exact .inr ⟨g.k, hi.k, e.symm⟩
    · simp only [Rec.set, if_neg (hA m hm)]; exact hi.a1 m hm t e
  · intro m hm e
    simp only [GS.bump, GS.set1] at e
    simp only [Rec.set, if_neg (hB m hm)]; exact hi.b0 m hm e
  · intro m hm t e
    simp only [GS.bump, GS.set1] at e
    simp only [Rec.set, if_neg (hB m hm)]; exact hi.b1 m hm t e
  · intro j hj
    simp only [GS.bump, GS.set1] at hj
    have : fv j ≠ fv g.k := fun h => by have := C.inj h; omega
    simp only [Rec.set, if_neg this]; exact hi.fr j (by omega)
  · intro m hm p e
    simp only [Rec.set, if_neg (hA m hm)] at e; exact hi.a2 m hm p e
  · intro m hm p e
    simp only [Rec.set, if_neg (hB m hm)] at e; exact hi.b2 m hm p e
  · intro m p e
    simp only [Rec.set] at e
    split at e
    · exact .inr (.inr ⟨g.k, hi.k, by simp [GS.bump, GS.set1], by assumption⟩)
    · rcases hi.dom m p e with h | h | ⟨j, h1, h2, h3⟩
      · exact .inl h
      · exact .inr (.inl h)
      · exact .inr (.inr ⟨j, h1, by simp only [GS.bump, GS.set1]; omega, h3⟩)

theorem fresh2 (C : Ctx fv A B k0) {g : GS} {M : Rec} (hi : Inv fv A B k0 g M) (n : Nat) (x y : Tm) :
    Inv fv A B k0 ((g.set2 (.var n) (.var (fv g.k))).bump) (M.set (fv g.k) (x, y)) ∧ M.le (M.set (fv g.k) (x, y)) := by
  have hA : ∀ m ∈ A, m ≠ fv g.k := fun m hm h => C.fa g.k hi.k (h ▸ hm)
  have hB : ∀ m ∈ B, m ≠ fv g.k := fun m hm h => C.fb g.k hi.k (h ▸ hm)
  refine ⟨⟨?_, ?_, ?_, ?_, ?_, ?_, ?_, ?_, ?_⟩, Rec.le_set (hi.fr _ (le_refl _))⟩
  · simp only [GS.bump, GS.set2]; have := hi.k; omega
  · intro m hm e
    simp only [GS.bump, GS.set2] at e
    simp only [Rec.set, if_neg (hA m hm)]; exact hi.a0 m hm e
  · intro m hm t e
    simp only [GS.bump, GS.set2] at e
    simp only [Rec.set, if_neg (hA m hm)]; exact hi.a1 m hm t e
  · intro m hm e
    simp only [GS.bump, GS.set2] at e
    split at e
    · simp at e
    · simp only [Rec.set, if_neg (hB m hm)]; exact hi.b0 m hm e
  · intro m hm t e
    simp only [GS.bump, GS.set2] at e
    split at e
    · simp only [Option.some.injEq] at e; exact .inr ⟨g.k, hi.k, e.symm⟩
    · simp only [Rec.set, if_neg (hB m hm)]; exact hi.b1 m hm t e
  · intro j hj
    simp only [GS.bump, GS.set2] at hj
    have : fv j ≠ fv g.k := fun h => by have := C.inj h; omega
    simp only [Rec.set, if_neg this]; exact hi.fr j (by omega)
  · intro m hm p e
    simp only [Rec.set, if_neg (hA m hm)] at e; exact hi.a2 m hm p e
  · intro m hm p e
    simp only [Rec.set, if_neg (hB m hm)] at e; exact hi.b2 m hm p e
  · intro m p e
    simp only [Rec.set] at e
    split at e
    · exact .inr (.inr ⟨g.k, hi.k, by simp [GS.bump, GS.set2], by assumption⟩)
    · rcases hi.dom m p e with h | h | ⟨j, h1, h2, h3⟩
      · exact .inl h
      · exact .inr (.inl h)
      · exact .inr (.inr ⟨j, h1, by simp only [GS.bump, GS.set2]; omega, h3⟩)

theorem var1 (C : Ctx fv A B k0) {g : GS} {M : Rec} (hi : Inv fv A B k0 g M) {n : Nat} {y : Tm} (hn : n ∈ A)
    (hy : ∀ m ∈ vars y, m ∈ B) : ∃ M', Inv fv A B k0 (genVar1 fv (.var n) n y g).2 M' ∧ M.le M' ∧
      Is M' (genVar1 fv (.var n) n y g).1 (.var n) y ∧ Named (genVar1 fv (.var n) n y g).1 := by
  have hoc : n ∉ vars y := fun h => C.disj n hn (hy n h)
  simp only [genVar1, if_neg hoc]
  cases e : g.s1 (.var n) with
  | some t =>
    simp only
    by_cases ht : t = y
    · rw [if_pos ht]
      rcases hi.a1 n hn t e with h | ⟨j, hj, rfl⟩
      · refine ⟨M, hi, Rec.le.refl M, ⟨by simp [h], by simp [Rec.l, h], by simp [Rec.r, h, ht]⟩, .var _⟩
      · exact absurd (hy (fv j) (by simp [← ht])) (C.fb j hj)
    · rw [if_neg ht]
      obtain ⟨h1, h2⟩ := fresh1 C hi n (.var n) y
      exact ⟨_, h1, h2, is_set, .var _⟩
  | none =>
    simp only
    have hM := hi.a0 n hn e
    refine ⟨M.set n (.var n, y), ⟨?_, ?_, ?_, ?_, ?_, ?_, ?_, ?_, ?_⟩, Rec.le_set hM, is_set, .var _⟩
    · exact hi.k
    · intro m hm e'
      simp only [GS.set1] at e'
      split at e'
      · simp at e'
      · rename_i h
        have : m ≠ n := fun h' => h (by rw [h'])
        simp only [Rec.set, if_neg this]; exact hi.a0 m hm e'
    · intro m hm t e'
      simp only [GS.set1] at e'
      split at e'
      · rename_i h
        simp only [Tm.var.injEq] at h; subst h
        simp only [Option.some.injEq] at e'; subst e'
        left; simp [Rec.set]
      · rename_i h
        have : m ≠ n := fun h' => h (by rw [h'])
        simp only [Rec.set, if_neg this]; exact hi.a1 m hm t e'
    · intro m hm e'
      have : m ≠ n := fun h' => C.disj n hn (h' ▸ hm)
      simp only [Rec.set, if_neg this]; exact hi.b0 m hm e'
    · intro m hm t e'
      have : m ≠ n := fun h' => C.disj n hn (h' ▸ hm)
      simp only [Rec.set, if_neg this]; exact hi.b1 m hm t e'
    · intro j hj
      have hj' : g.k ≤ j := hj
      have : fv j ≠ n := fun h' => C.fa j (by have := hi.k; omega) (h' ▸ hn)
      simp only [Rec.set, if_neg this]; exact hi.fr j hj
    · intro m hm p e'
      simp only [Rec.set] at e'
      split at e'
      · rw [← Option.some.inj e']; subst m; rfl
      · exact hi.a2 m hm p e'
    · intro m hm p e'
      have : m ≠ n := fun h' => C.disj n hn (h' ▸ hm)
      simp only [Rec.set, if_neg this] at e'; exact hi.b2 m hm p e'
    · intro m p e'
      simp only [Rec.set] at e'
      split at e'
      · subst m; exact .inl hn
      · exact hi.dom m p e'

theorem var2 (C : Ctx fv A B k0) {g : GS} {M : Rec} (hi : Inv fv A B k0 g M) {n : Nat} {x : Tm} (hn : n ∈ B)
    (hx : ∀ m ∈ vars x, m ∈ A) : ∃ M', Inv fv A B k0 (genVar2 fv x (.var n) n g).2 M' ∧ M.le M' ∧
      Is M' (genVar2 fv x (.var n) n g).1 x (.var n) ∧ Named (genVar2 fv x (.var n) n g).1 := by
  have hoc : n ∉ vars x := fun h => C.disj n (hx n h) hn
  simp only [genVar2, if_neg hoc]
  cases e : g.s2 (.var n) with
  | some t =>
    simp only
    by_cases ht : t = x
    · rw [if_pos ht]
      rcases hi.b1 n hn t e with h | ⟨j, hj, rfl⟩
      · refine ⟨M, hi, Rec.le.refl M, ⟨by simp [h], by simp [Rec.l, h, ht], by simp [Rec.r, h]⟩, .var _⟩
      · exact absurd (hx (fv j) (by simp [← ht])) (C.fa j hj)
    · rw [if_neg ht]
      obtain ⟨h1, h2⟩ := fresh2 C hi n x (.var n)
      exact ⟨_, h1, h2, is_set, .var _⟩
  | none =>
    simp only
    have hM := hi.b0 n hn e
    refine ⟨M.set n (x, .var n), ⟨?_, ?_, ?_, ?_, ?_, ?_, ?_, ?_, ?_⟩, Rec.le_set hM, is_set, .var _⟩
    · exact hi.k
    · intro m hm e'
      have : m ≠ n := fun h' => C.disj m hm (h' ▸ hn)
      simp only [Rec.set, if_neg this]; exact hi.a0 m hm e'
    · intro m hm t e'
      have : m ≠ n := fun h' => C.disj m hm (h' ▸ hn)
      simp only [Rec.set, if_neg this]; exact hi.a1 m hm t e'
    · intro m hm e'
      simp only [GS.set2] at e'
      split at e'
      · simp at e'
      · rename_i h
        have : m ≠ n := fun h' => h (by rw [h'])
        simp only [Rec.set, if_neg this]; exact hi.b0 m hm e'
    · intro m hm t e'
      simp only [GS.set2] at e'
      split at e'
      · rename_i h
        simp only [Tm.var.injEq] at h; subst h
        simp only [Option.some.injEq] at e'; subst e'
        left; simp [Rec.set]
      · rename_i h
        have : m ≠ n := fun h' => h (by rw [h'])
        simp only [Rec.set, if_neg this]; exact hi.b1 m hm t e'
    · intro j hj
      have hj' : g.k ≤ j := hj
      have : fv j ≠ n := fun h' => C.fb j (by have := hi.k; omega) (h' ▸ hn)
      simp only [Rec.set, if_neg this]; exact hi.fr j hj
    · intro m hm p e'
      have : m ≠ n := fun h' => C.disj m hm (h' ▸ hn)
      simp only [Rec.set, if_neg this] at e'; exact hi.a2 m hm p e'
    · intro m hm p e'
      simp only [Rec.set] at e'
      split at e'
      · rw [← Option.some.inj e']; subst m; rfl
      · exact hi.b2 m hm p e'
    · intro m p e'
      simp only [Rec.set] at e'
      split at e'
      · subst m; exact .inr (.inl hn)
      · exact hi.dom m p e'

theorem traverse_spec (C : Ctx fv A B k0) (θ : Nat → Tm) : ∀ x : Tm, Named x → (∀ n ∈ vars x, n ∈ A) →
    ∀ y, Named y → (∀ n ∈ vars y, n ∈ B) → x.sub θ = y.sub θ → ∀ g M, Inv fv A B k0 g M →
    ∃ M', Inv fv A B k0 (traverse fv x y g).2 M' ∧ M.le M' ∧ Is M' (traverse fv x y g).1 x y ∧
      Named (traverse fv x y g).1 := by
  have same : ∀ x : Tm, Named x → (∀ n ∈ vars x, n ∈ A) → (∀ n ∈ vars x, n ∈ B) → ∀ g M, Inv fv A B k0 g M →
      ∃ M', Inv fv A B k0 g M' ∧ M.le M' ∧ Is M' x x x ∧ Named x := by
    intro x hx ha hb g M hi
    have hv : vars x = ∅ := by
      rw [Finset.eq_empty_iff_forall_notMem]; intro n hn; exact C.disj n (ha n hn) (hb n hn)
    exact ⟨M, hi, Rec.le.refl M, ⟨by simp [hv], Subst.sub_of_ground hv _, Subst.sub_of_ground hv _⟩, hx⟩
  intro x
  induction x using Tm.ind with
  | hv n =>
    intro hx ha y hy hb hθ g M hi
    rw [traverse]
    by_cases e : Tm.var n = y
    · rw [if_pos e]; subst e; exact same _ hx ha hb g M hi
    · rw [if_neg e]; exact var1 C hi (ha n (by simp)) hb
  | hc c =>
    intro hx ha y hy hb hθ g M hi
    rw [traverse.eq_def]
    simp only
    by_cases e : Tm.con c = y
    · rw [if_pos e]; subst e; exact same _ hx ha hb g M hi
    · rw [if_neg e]
      cases y with
      | var m => exact var2 C hi (hb m (by simp)) ha
      | con d => simp only [sub_con, Tm.con.injEq] at hθ; exact absurd (by rw [hθ]) e
      | app bs => simp at hθ
  | ha as ih =>
    intro hx ha y hy hb hθ g M hi
    rw [traverse.eq_def]
    simp only
    by_cases e : Tm.app as = y
    · rw [if_pos e]; subst e; exact same _ hx ha hb g M hi
    · rw [if_neg e]
      cases y with
      | var m => exact var2 C hi (hb m (by simp)) ha
      | con d => simp at hθ
      | app bs =>
        simp only
        cases hx with
        | app c as hx =>
        cases hy with
        | app d bs hy =>
          simp only [sub_app, List.map_cons, sub_con, Tm.app.injEq, List.cons.injEq, Tm.con.injEq] at hθ
          obtain ⟨rfl, hθ⟩ := hθ
          have hlen : as.length = bs.length := by simpa using congrArg List.length hθ
          rw [if_pos ⟨by simp [hlen], by simp⟩]
          have key : ∀ (as bs : List Tm), (∀ t ∈ as, Named t) → (∀ n ∈ varsL as, n ∈ A) →
              (∀ t ∈ as, Named t → (∀ n ∈ vars t, n ∈ A) → ∀ y, Named y → (∀ n ∈ vars y, n ∈ B) → t.sub θ = y.sub θ →
                ∀ g M, Inv fv A B k0 g M → ∃ M', Inv fv A B k0 (traverse fv t y g).2 M' ∧ M.le M' ∧
                  Is M' (traverse fv t y g).1 t y ∧ Named (traverse fv t y g).1) →
              (∀ t ∈ bs, Named t) → (∀ n ∈ varsL bs, n ∈ B) → as.map (sub θ) = bs.map (sub θ) →
              ∀ g M, Inv fv A B k0 g M → ∃ M', Inv fv A B k0 (traverseL fv as bs g).2 M' ∧ M.le M' ∧
                (∀ n ∈ varsL (traverseL fv as bs g).1, M' n ≠ none) ∧
                (traverseL fv as bs g).1.map (sub M'.l) = as ∧ (traverseL fv as bs g).1.map (sub M'.r) = bs ∧
                ∀ t ∈ (traverseL fv as bs g).1, Named t := by
            clear hθ hlen e hx hy ha hb hi ih
            intro as
            induction as with
            | nil =>
              intro bs _ _ _ _ _ hθ g M hi
              cases bs with
              | nil => exact ⟨M, hi, Rec.le.refl M, by simp [traverseL]⟩
              | cons b bs => simp at hθ
            | cons a as iha =>
              intro bs hx ha ih hy hb hθ g M hi
              cases bs with
              | nil => simp at hθ
              | cons b bs =>
                simp only [List.map_cons, List.cons.injEq] at hθ
                simp only [varsL_cons, Finset.mem_union] at ha hb
                obtain ⟨M1, i1, l1, q1, n1⟩ := ih a (by simp) (hx a (by simp)) (fun n hn => ha n (.inl hn)) b
                  (hy b (by simp)) (fun n hn => hb n (.inl hn)) hθ.1 g M hi
                obtain ⟨M2, i2, l2, d2, a2, b2, n2⟩ := iha bs (fun t ht => hx t (by simp [ht]))
                  (fun n hn => ha n (.inr hn)) (fun t ht => ih t (by simp [ht])) (fun t ht => hy t (by simp [ht]))
                  (fun n hn => hb n (.inr hn)) hθ.2 _ M1 i1
                have q2 := q1.mono l2
                rw [traverseL]
                refine ⟨M2, i2, l1.trans l2, ?_, ?_, ?_, ?_⟩
                · intro n hn
                  simp only [varsL_cons, Finset.mem_union] at hn
                  exact hn.elim (q2.1 n) (d2 n)
                · simp only [List.map_cons, a2, q2.2.1]
                · simp only [List.map_cons, b2, q2.2.2]
                · intro t ht
                  rcases List.mem_cons.1 ht with rfl | ht
                  · exact n1
                  · exact n2 t ht
          have hhead : traverse fv (.con c) (.con c) g = (.con c, g) := by rw [traverse.eq_def]; simp
          have hL : traverseL fv (.con c :: as) (.con c :: bs) g =
              (.con c :: (traverseL fv as bs g).1, (traverseL fv as bs g).2) := by rw [traverseL, hhead]
          rw [hL]
          obtain ⟨M', h1, h2, h3, h4, h5, h6⟩ := key as bs hx (fun n hn => ha n (by simp [hn]))
            (fun t ht => ih t (by simp [ht])) hy (fun n hn => hb n (by simp [hn])) hθ g M hi
          refine ⟨M', h1, h2, ⟨fun n hn => h3 n (by simpa using hn), ?_, ?_⟩, .app c _ h6⟩
          · simp [h4]
          · simp [h5]

end Gen

/-- Anti-unifying two unifiable, variable-disjoint terms (with constant functors) yields a term that
covers both.  `hx`/`hy`: the variables still to be allocated do not occur in the arguments. -/
theorem C11_covers {fv : Nat → Nat} (hfv : Function.Injective fv) {k : Nat} {x y : Tm} (nx : Named x) (ny : Named y)
    (hd : Disjoint (vars x) (vars y)) (hx : ∀ j ≥ k, fv j ∉ vars x) (hy : ∀ j ≥ k, fv j ∉ vars y)
    (hu : ∃ θ, x.sub θ = y.sub θ) :
    InstanceOf x (generalizer fv k x y).1 ∧ InstanceOf y (generalizer fv k x y).1 ∧
      Named (generalizer fv k x y).1 ∧ k ≤ (generalizer fv k x y).2 := by
  obtain ⟨θ, hθ⟩ := hu
  have C : Gen.Ctx fv (vars x) (vars y) k :=
    ⟨hfv, fun n hn => by simpa using Finset.disjoint_left.1 hd hn, fun j hj => by simpa using hx j hj,
      fun j hj => by simpa using hy j hj⟩
  obtain ⟨M, h1, _, h3, h4⟩ := Gen.traverse_spec C θ x nx (fun n hn => by simpa using hn) y ny
    (fun n hn => by simpa using hn) hθ ⟨fun _ => none, fun _ => none, k⟩ (fun _ => none)
    ⟨le_refl _, fun _ _ _ => rfl, by simp, fun _ _ _ => rfl, by simp, fun _ _ => rfl, by simp, by simp, by simp⟩
  exact ⟨⟨_, h3.2.1⟩, ⟨_, h3.2.2⟩, h4, h1.k⟩

/-- The matching substitutions leave the variables of the arguments as they are, and every variable of the result is
one of theirs or a newly allocated one. -/
theorem gen_match {fv : Nat → Nat} (hfv : Function.Injective fv) {k : Nat} {x y : Tm} (nx : Named x) (ny : Named y)
    (hd : Disjoint (vars x) (vars y)) (hx : ∀ j ≥ k, fv j ∉ vars x) (hy : ∀ j ≥ k, fv j ∉ vars y)
    (hu : ∃ θ, x.sub θ = y.sub θ) :
    ∃ l r : Nat → Tm, (generalizer fv k x y).1.sub l = x ∧ (generalizer fv k x y).1.sub r = y ∧
      (∀ n ∈ vars (generalizer fv k x y).1, n ∈ vars x ∨ n ∈ vars y ∨ ∃ j, k ≤ j ∧ j < (generalizer fv k x y).2 ∧ n = fv j) ∧
      (∀ n ∈ vars (generalizer fv k x y).1, n ∈ vars x → l n = .var n) ∧
      (∀ n ∈ vars (generalizer fv k x y).1, n ∈ vars y → r n = .var n) ∧
      Named (generalizer fv k x y).1 ∧ k ≤ (generalizer fv k x y).2 := by
  obtain ⟨θ, hθ⟩ := hu
  have C : Gen.Ctx fv (vars x) (vars y) k :=
    ⟨hfv, fun n hn => by simpa using Finset.disjoint_left.1 hd hn, fun j hj => by simpa using hx j hj,
      fun j hj => by simpa using hy j hj⟩
  obtain ⟨M, h1, _, h3, h4⟩ := Gen.traverse_spec C θ x nx (fun n hn => by simpa using hn) y ny
    (fun n hn => by simpa using hn) hθ ⟨fun _ => none, fun _ => none, k⟩ (fun _ => none)
    ⟨le_refl _, fun _ _ _ => rfl, by simp, fun _ _ _ => rfl, by simp, fun _ _ => rfl, by simp, by simp, by simp⟩
  refine ⟨_, _, h3.2.1, h3.2.2, fun n hn => ?_, fun n hn hnx => ?_, fun n hn hny => ?_, h4, h1.k⟩
  · cases e : M n with
    | none => exact absurd e (h3.1 n hn)
    | some p => simpa [generalizer] using h1.dom n p e
  · cases e : M n with
    | none => exact absurd e (h3.1 n hn)
    | some p => simpa [Gen.Rec.l, e] using h1.a2 n (by simpa using hnx) p e
  · cases e : M n with
    | none => exact absurd e (h3.1 n hn)
    | some p => simpa [Gen.Rec.r, e] using h1.b2 n (by simpa using hny) p e

section
private def f2 (a b : Tm) : Tm := .app [.con (.str "f"), a, b]
private def ci (i : Int) : Tm := .con (.int i)

/-- Without the unifiability hypothesis the claim is false: `generalizer(f(1,1), f(2,3)) = f(Z,Z)`. -/
theorem C11_unsound : generalizer id 5 (f2 (ci 1) (ci 1)) (f2 (ci 2) (ci 3)) = (f2 (.var 5) (.var 5), 6) ∧
    ¬ InstanceOf (f2 (ci 2) (ci 3)) (f2 (.var 5) (.var 5)) := by
  refine ⟨by decide, ?_⟩
  rintro ⟨σ, h⟩
  simp [f2, ci] at h
  rw [h.1] at h
  simp at h

-- the hypotheses of `C11_covers` are met by f(X, X, 1) and f(Y, 2, Z) and the result is a proper generalization
example : let x := Tm.app [.con (.str "f"), .var 0, .var 0, ci 1]
    let y := Tm.app [.con (.str "f"), .var 1, ci 2, .var 2]
    generalizer id 5 x y = (.app [.con (.str "f"), .var 0, .var 5, .var 2], 6) ∧ ∃ θ, x.sub θ = y.sub θ := by
  refine ⟨by decide, fun n => if n = 2 then ci 1 else ci 2, ?_⟩
  simp [ci]
end

/-! ### Property C13: DisjointEstimate -/

theorem Named.ren {t : Tm} (h : Named t) (ρ : Nat → Nat) : Named (t.sub fun n => .var (ρ n)) := by
  induction h with
  | var n => exact .var _
  | con c => exact .con c
  | app c as _ ih =>
    simp only [sub_app, List.map_cons, sub_con]
    refine .app c _ fun t ht => ?_
    obtain ⟨u, hu, rfl⟩ := List.mem_map.1 ht
    exact ih u hu

theorem Named.variant {t u : Tm} (h : Named t) (hv : Variant t u) : Named u := by
  obtain ⟨ρ, _, rfl⟩ := hv; exact Named.ren h ρ

theorem canonP_vars {cv : Nat → Nat} (x : Tm) : ∀ n ∈ vars (canonP cv x), ∃ i, n = cv i := by
  obtain ⟨ws, ew, nd, m, s⟩ := ren_nil cv x
  intro n hn
  rw [canonP, s, mem_vars_ren] at hn
  obtain ⟨a, _, rfl⟩ := hn; exact ⟨_, rfl⟩

namespace DisjointEst

structure Inv (cv : Nat → Nat) (S : TSet) (added : List Tm) : Prop where
  canon : ∀ s ∈ S.xs, ∀ n ∈ vars s, ∃ i, n = cv i
  named : ∀ s ∈ S.xs, Named s
  cov : ∀ t ∈ added, ∃ s ∈ S.xs, InstanceOf t s

theorem empty_unifies {f : Nat} {x y : Tm} {b} (e : Heap.unifiesF f x y (fun _ => none) = some b) :
    b = true ↔ ∃ θ, x.sub θ = y.sub θ := by
  rw [Heap.C02_unifies Heap.acyclic_empty e]
  constructor
  · rintro ⟨τ, _, h⟩; exact ⟨τ, h⟩
  · rintro ⟨τ, h⟩; exact ⟨τ, by intro n t e; simp at e, h⟩

variable {fv cv : Nat → Nat}

/-- the loop: what is kept or merged still covers everything, and the merged term is renamed apart -/
theorem scan_spec (hfv : Function.Injective fv) (hsep : ∀ i j, fv i ≠ cv j) {f : Nat} : ∀ (rev : List Tm),
    (∀ s ∈ rev, Named s) → (∀ s ∈ rev, ∀ n ∈ vars s, ∃ i, n = cv i) → ∀ r k keep r' k', Named r → Alloc fv k r →
    scan fv f rev r k = some (keep, r', k') →
    Named r' ∧ Alloc fv k' r' ∧ InstanceOf r r' ∧ (∀ s ∈ keep, s ∈ rev) ∧ ∀ s ∈ rev, s ∈ keep ∨ InstanceOf s r' := by
  intro rev
  induction rev with
  | nil =>
    intro _ _ r k keep r' k' nr ar e
    simp only [scan, Option.some.injEq, Prod.mk.injEq] at e
    obtain ⟨rfl, rfl, rfl⟩ := e
    exact ⟨nr, ar, InstanceOf.refl _, by simp, by simp⟩
  | cons x rev ih =>
    intro hn hc r k keep r' k' nr ar e
    rw [scan] at e
    cases h1 : Heap.unifiesF f r x (fun _ => none) with
    | none => simp [h1] at e
    | some b =>
      cases b with
      | true =>
        simp only [h1] at e
        have hu := (empty_unifies h1).1 rfl
        have hcx := hc x (by simp)
        obtain ⟨g1, g2, g3, g4⟩ := C11_covers hfv (k := k) nr (hn x (by simp))
          (by rw [Finset.disjoint_left]; intro n h1 h2
              obtain ⟨i, _, rfl⟩ := ar n h1
              obtain ⟨j, e⟩ := hcx _ h2
              exact hsep i j e)
          (fun j hj h => by obtain ⟨i, hi, e⟩ := ar _ h; have := hfv e; omega)
          (fun j hj h => by obtain ⟨i, e⟩ := hcx _ h; exact hsep _ _ e) hu
        have hv := (freshV_spec hfv (generalizer fv k r x).2 (generalizer fv k r x).1).1
        obtain ⟨j1, j2, j3, j4, j5⟩ := ih (fun s hs => hn s (by simp [hs])) (fun s hs => hc s (by simp [hs])) _ _ _ _ _
          (Named.variant g3 hv) (freshV_alloc hfv _ _) e
        have hi := hv.symm.instanceOf.trans j3
        refine ⟨j1, j2, g1.trans hi, fun s hs => by simp [j4 s hs], fun s hs => ?_⟩
        rcases List.mem_cons.1 hs with rfl | hs
        · exact .inr (g2.trans hi)
        · exact j5 s hs
      | false =>
        simp only [h1] at e
        cases h2 : scan fv f rev r k with
        | none => simp [h2] at e
        | some q =>
          obtain ⟨keep1, r1, k1⟩ := q
          simp only [h2, Option.some.injEq, Prod.mk.injEq] at e
          obtain ⟨rfl, rfl, rfl⟩ := e
          obtain ⟨j1, j2, j3, j4, j5⟩ := ih (fun s hs => hn s (by simp [hs])) (fun s hs => hc s (by simp [hs])) _ _ _ _ _
            nr ar h2
          refine ⟨j1, j2, j3, fun s hs => ?_, fun s hs => ?_⟩
          · rcases List.mem_append.1 hs with hs | hs
            · simp [j4 s hs]
            · simp at hs; simp [hs]
          · rcases List.mem_cons.1 hs with rfl | hs
            · simp
            · rcases j5 s hs with h | h
              · simp [h]
              · exact .inr h

theorem add_inv (hfv : Function.Injective fv) (hcv : Function.Injective cv) (hsep : ∀ i j, fv i ≠ cv j) {f : Nat}
    {S S' : TSet} {added : List Tm} {t : Tm} (ht : Named t) (hi : Inv cv S added)
    (e : add fv cv f S t = some S') : Inv cv S' (added ++ [t]) := by
  have hv := (freshV_spec hfv S.k t).1
  unfold add at e
  simp only at e
  cases h1 : scan fv f S.xs.reverse (freshV fv S.k t).1 (freshV fv S.k t).2 with
  | none => simp [h1] at e
  | some q =>
    obtain ⟨keep, r', k'⟩ := q
    simp only [h1, Option.some.injEq] at e
    subst e
    obtain ⟨j1, j2, j3, j4, j5⟩ := scan_spec hfv hsep _ (fun s hs => hi.named s (by simpa using hs))
      (fun s hs => hi.canon s (by simpa using hs)) _ _ _ _ _ (Named.variant ht hv) (freshV_alloc hfv _ _) h1
    have hcn := canonP_variant hcv r'
    refine ⟨fun s hs => ?_, fun s hs => ?_, fun u hu => ?_⟩
    · rcases List.mem_append.1 hs with hs | hs
      · exact hi.canon s (by simpa using j4 s hs)
      · simp at hs; subst hs; exact canonP_vars r'
    · rcases List.mem_append.1 hs with hs | hs
      · exact hi.named s (by simpa using j4 s hs)
      · simp at hs; subst hs; exact Named.variant j1 hcn
    · rcases List.mem_append.1 hu with hu | hu
      · obtain ⟨s, hs, h⟩ := hi.cov u hu
        rcases j5 s (by simpa using hs) with h' | h'
        · exact ⟨s, by simp [h'], h⟩
        · exact ⟨canonP cv r', by simp, (h.trans h').trans hcn.symm.instanceOf⟩
      · simp at hu; subst hu
        exact ⟨canonP cv r', by simp, (hv.symm.instanceOf.trans j3).trans hcn.symm.instanceOf⟩

theorem addAll_inv (hfv : Function.Injective fv) (hcv : Function.Injective cv) (hsep : ∀ i j, fv i ≠ cv j) {f : Nat} :
    ∀ ts S S' added, (∀ t ∈ ts, Named t) → Inv cv S added → addAll (add fv cv f) S ts = some S' →
      Inv cv S' (added ++ ts) := by
  intro ts
  induction ts with
  | nil => intro S S' added _ hi e; simp [addAll] at e; subst e; simpa using hi
  | cons t ts ih =>
    intro S S' added hn hi e
    rw [addAll] at e
    cases h1 : add fv cv f S t with
    | none => simp [h1] at e
    | some S1 =>
      simp only [h1] at e
      have := ih _ _ (added ++ [t]) (fun t ht => hn t (by simp [ht])) (add_inv hfv hcv hsep (hn t (by simp)) hi h1) e
      simpa using this

/-- After any history of additions (of terms with constant functors) every added term is an instance of
some stored pattern. -/
theorem C13_covers (hfv : Function.Injective fv) (hcv : Function.Injective cv) (hsep : ∀ i j, fv i ≠ cv j) {f k : Nat}
    {ts : List Tm} (hn : ∀ t ∈ ts, Named t) {S : TSet} (e : addAll (add fv cv f) ⟨[], k⟩ ts = some S) :
    ∀ t ∈ ts, ∃ s ∈ S.xs, InstanceOf t s := by
  have := addAll_inv hfv hcv hsep ts _ _ [] hn ⟨by simp, by simp, by simp⟩ e
  simpa using this.cov

theorem go_spec {f : Nat} {x : Tm} : ∀ (l res : List Tm), roots.go f x l = some res →
    ∀ s, s ∈ res ↔ s ∈ l ∧ ∃ θ, x.sub θ = s.sub θ := by
  intro l
  induction l with
  | nil => intro res e; simp [roots.go] at e; subst e; simp
  | cons a l ih =>
    intro res e s
    rw [roots.go] at e
    cases h1 : Heap.unifiesF f x a (fun _ => none) with
    | none => simp [h1] at e
    | some b =>
      have c := empty_unifies h1
      simp only [h1] at e
      cases h2 : roots.go f x l with
      | none => simp [h2] at e
      | some r =>
        simp only [h2, Option.some.injEq] at e; subst e
        have := ih r h2 s
        cases b with
        | true =>
          simp only [if_true, List.mem_cons, this]
          constructor
          · rintro (rfl | h)
            · exact ⟨.inl rfl, c.1 rfl⟩
            · exact ⟨.inr h.1, h.2⟩
          · rintro ⟨rfl | h, h'⟩
            · exact .inl rfl
            · exact .inr ⟨h, h'⟩
        | false =>
          have hn : ¬ ∃ θ, x.sub θ = a.sub θ := fun h => by simpa using c.2 h
          rw [if_neg (by simp), this, List.mem_cons]
          constructor
          · rintro ⟨h, h'⟩; exact ⟨.inr h, h'⟩
          · rintro ⟨rfl | h, h'⟩
            · exact absurd h' hn
            · exact ⟨h, h'⟩

/-- `roots(x)` returns exactly the stored patterns having an instance in common with `x`; hence after any
history the query for an added term is never empty. -/
theorem C13_roots (hfv : Function.Injective fv) (hcv : Function.Injective cv) (hsep : ∀ i j, fv i ≠ cv j) {f k g : Nat}
    {ts : List Tm} (hn : ∀ t ∈ ts, Named t) {S : TSet} (e : addAll (add fv cv f) ⟨[], k⟩ ts = some S) {x : Tm} {l}
    (er : roots fv g S x = some l) :
    (∀ s, s ∈ l ↔ s ∈ S.xs ∧ ∃ t, InstanceOf t x ∧ InstanceOf t s) ∧ (x ∈ ts → l ≠ []) := by
  have hi := addAll_inv hfv hcv hsep ts _ _ [] hn ⟨by simp, by simp, by simp⟩ e
  have hv := (freshV_spec hfv S.k x).1
  have key : ∀ s, s ∈ l ↔ s ∈ S.xs ∧ ∃ t, InstanceOf t x ∧ InstanceOf t s := by
    intro s
    rw [go_spec S.xs l er s]
    refine and_congr_right fun hs => ?_
    constructor
    · rintro ⟨θ, h⟩
      exact ⟨_, InstanceOf.trans ⟨θ, rfl⟩ hv.instanceOf, θ, h.symm⟩
    · rintro ⟨t, h1, h2⟩
      obtain ⟨σ, h1⟩ := h1.trans hv.symm.instanceOf
      obtain ⟨τ, h2⟩ := h2
      have hd : ∀ n ∈ vars s, n ∉ vars (freshV fv S.k x).1 := by
        intro n h1 h2
        obtain ⟨j, rfl⟩ := hi.canon s hs n h1
        obtain ⟨i, _, e⟩ := freshV_alloc hfv _ _ _ h2
        exact hsep i j e.symm
      classical
      refine ⟨fun n => if n ∈ vars s then τ n else σ n, ?_⟩
      calc _ = (freshV fv S.k x).1.sub σ := sub_congr fun n hn => if_neg fun h => hd n h hn
        _ = s.sub τ := by rw [h1, h2]
        _ = _ := sub_congr fun n hn => (if_pos hn).symm
  refine ⟨key, fun hx hl => ?_⟩
  obtain ⟨s, hs, h⟩ := hi.cov x (by simpa using hx)
  have := (key s).2 ⟨hs, x, InstanceOf.refl x, h⟩
  simp [hl] at this

theorem scan_mono {f : Nat} : ∀ rev r k q, scan fv f rev r k = some q → scan fv (f + 1) rev r k = some q := by
  intro rev
  induction rev with
  | nil => intro r k q e; exact e
  | cons x rev ih =>
    intro r k q e
    rw [scan] at e ⊢
    cases h1 : Heap.unifiesF f r x (fun _ => none) with
    | none => simp [h1] at e
    | some b =>
      rw [unifiesF_mono h1]
      cases b with
      | true => simp only [h1] at e ⊢; exact ih _ _ _ e
      | false =>
        simp only [h1] at e ⊢
        cases h2 : scan fv f rev r k with
        | none => simp [h2] at e
        | some q' => rw [ih _ _ _ h2]; simpa only [h2] using e

theorem unifiesF_total (x y : Tm) : ∃ N, ∀ f ≥ N, Heap.unifiesF f x y (fun _ => none) ≠ none := by
  obtain ⟨N, hN⟩ := Heap.C04_terminates Heap.acyclic_empty x y
  refine ⟨N, fun f hf => ?_⟩
  unfold Heap.unifiesF
  simp only [ne_eq, Option.map_eq_none_iff]
  exact hN f hf _ _ _ (by simp)

theorem scan_total : ∀ rev r k, ∃ N, ∀ f ≥ N, scan fv f rev r k ≠ none := by
  intro rev
  induction rev with
  | nil => intro r k; exact ⟨0, by simp [scan]⟩
  | cons x rev ih =>
    intro r k
    obtain ⟨N1, h1⟩ := unifiesF_total r x
    obtain ⟨N2, h2⟩ := ih r k
    obtain ⟨N3, h3⟩ := ih (freshV fv (generalizer fv k r x).2 (generalizer fv k r x).1).1
      (freshV fv (generalizer fv k r x).2 (generalizer fv k r x).1).2
    refine ⟨max N1 (max N2 N3), fun f hf => ?_⟩
    rw [scan]
    cases e1 : Heap.unifiesF f r x (fun _ => none) with
    | none => exact absurd e1 (h1 f (by omega))
    | some b => cases b with
      | true => exact h3 f (by omega)
      | false =>
        cases e2 : scan fv f rev r k with
        | none => exact absurd e2 (h2 f (by omega))
        | some q => simp

theorem add_mono (f S t S') (e : add fv cv f S t = some S') : add fv cv (f + 1) S t = some S' := by
  unfold add at *
  simp only at *
  cases h1 : scan fv f S.xs.reverse (freshV fv S.k t).1 (freshV fv S.k t).2 with
  | none => simp [h1] at e
  | some q => rw [scan_mono _ _ _ _ h1]; simpa only [h1] using e

/-- every history terminates -/
theorem C13_terminates (k : Nat) (ts : List Tm) : ∃ N, ∀ f ≥ N, addAll (add fv cv f) ⟨[], k⟩ ts ≠ none := by
  refine addAll_total (add := fun f => add fv cv f) (fun _ => True) add_mono ?_ ts _ trivial
  intro S t _
  obtain ⟨N, hN⟩ := scan_total S.xs.reverse (freshV fv S.k t).1 (freshV fv S.k t).2 (fv := fv)
  cases h2 : add fv cv N S t with
  | none =>
    unfold add at h2; simp only at h2
    cases h3 : scan fv N S.xs.reverse (freshV fv S.k t).1 (freshV fv S.k t).2 with
    | none => exact absurd h3 (hN N (le_refl _))
    | some q => simp [h3] at h2
  | some q => exact ⟨N, q, h2, trivial⟩

/-- The documented disjointness fails on a reachable history: after adding f(1,Y), f(3,4), f(X,2) (in this
order) the collection is [f(3,4), f(X,Y)], whose first pattern is an instance of the second, and looking up
f(3,4) raises `KeyError`. -/
theorem C13_overlap : ∃ S, addAll (add (fun i => 2 * i) (fun i => 2 * i + 1) 40) ⟨[], 5⟩
      [f2 (ci 1) (.var 0), f2 (ci 3) (ci 4), f2 (.var 0) (ci 2)] = some S ∧
    S.xs = [f2 (ci 3) (ci 4), f2 (.var 1) (.var 3)] ∧
    root (fun i => 2 * i) 40 S (f2 (ci 3) (ci 4)) = some none := by
  exact ⟨⟨[f2 (ci 3) (ci 4), f2 (.var 1) (.var 3)], 9⟩, by rfl, rfl, by rfl⟩

-- non-vacuity of the hypotheses of `C13_covers` (allocation of even, canonical names odd)
example : Function.Injective (fun i : Nat => 2 * i) ∧ Function.Injective (fun i : Nat => 2 * i + 1) ∧
    (∀ i j : Nat, 2 * i ≠ 2 * j + 1) ∧ Named (f2 (ci 1) (.var 0)) :=
  ⟨fun a b (h : 2 * a = 2 * b) => by omega, fun a b (h : 2 * a + 1 = 2 * b + 1) => by omega, fun i j => by omega,
    .app _ _ (by simp [ci]; exact ⟨.con _, .var _⟩)⟩

end DisjointEst
end Verif
