/-
Property C89: racing the programs of a collection.
-/
import Verif.Race
import Mathlib.Tactic.Linarith
import Mathlib.Tactic.Positivity
import Mathlib.Tactic.FieldSimp
import Mathlib.Tactic.Ring
import Mathlib.Algebra.Order.Archimedean.Basic
import Mathlib.Data.Rat.Floor

set_option linter.unusedSectionVars false
set_option linter.unusedSimpArgs false

namespace Verif
namespace Race
variable {X Y : Type}

/-- specification: the program ends in time `t` in a round with this budget -/
def Ends (w : World X Y) (k : Nat) (budget : ℚ) (x : X) (t : ℚ) : Prop := w.dur k x = some t ∧ t ≤ budget

/-- specification: `x` is the first of the fastest programs -/
def Fastest (w : World X Y) (C : List X) (k : Nat) (budget t : ℚ) (x : X) : Prop :=
  ∃ l l', C = l ++ x :: l' ∧ Ends w k budget x t ∧ (∀ z ∈ l, ∀ u, Ends w k budget z u → t < u) ∧ ∀ z ∈ l', ∀ u, Ends w k budget z u → t ≤ u

theorem ends_or (w : World X Y) (k : Nat) (budget : ℚ) (x : X) : (∃ t, Ends w k budget x t) ∨ ∀ t, ¬ Ends w k budget x t := by
  by_cases h : ∃ t, Ends w k budget x t
  · exact .inl h
  · exact .inr fun t ht => h ⟨t, ht⟩

theorem one_ends {w : World X Y} {k : Nat} {b : ℚ} {x : X} {t : ℚ} (h : Ends w k b x t) (best : Best X Y) :
    one w k b best x = if (∃ u ∈ best, u.1 ≤ t) then best else some (t, x, w.out x) := by
  unfold one
  rw [h.1]
  simp only [if_neg (not_lt.2 h.2)]
  cases best with
  | none => simp
  | some u =>
    by_cases ht : t < u.1
    · simp [ht]
    · simp [ht, not_lt.1 ht]

theorem one_not {w : World X Y} {k : Nat} {b : ℚ} {x : X} (h : ∀ t, ¬ Ends w k b x t) (best : Best X Y) : one w k b best x = best := by
  unfold one
  cases hd : w.dur k x with
  | none => rfl
  | some t =>
    have : b < t := by
      by_contra hc
      exact h t ⟨hd, not_lt.1 hc⟩
    simp [this]

/-- a round, by the programs that were run -/
theorem foldl_spec (w : World X Y) (k : Nat) (b : ℚ) : ∀ (C : List X),
    (C.foldl (one w k b) none = none ∧ ∀ x ∈ C, ∀ t, ¬ Ends w k b x t) ∨ ∃ t x, C.foldl (one w k b) none = some (t, x, w.out x) ∧ Fastest w C k b t x := by
  intro C
  induction C using List.reverseRecOn with
  | nil => exact .inl ⟨rfl, by simp⟩
  | append_singleton C y ih =>
    rw [List.foldl_append, List.foldl_cons, List.foldl_nil]
    rcases ends_or w k b y with ⟨s, hs⟩ | hy
    · rw [one_ends hs]
      rcases ih with ⟨e, h⟩ | ⟨t, x, e, l, l', hC, h1, h2, h3⟩
      · right
        refine ⟨s, y, by simp [e], C, [], rfl, hs, fun z hz u hu => absurd hu (h z hz u), by simp⟩
      · right
        rw [e]
        by_cases hst : t ≤ s
        · refine ⟨t, x, by simp [hst], l, l' ++ [y], by simp [hC], h1, h2, fun z hz u hu => ?_⟩
          rcases List.mem_append.1 hz with hz | hz
          · exact h3 z hz u hu
          · rw [List.mem_singleton.1 hz] at hu
            cases hu.1.symm.trans hs.1
            exact hst
        · have hst' := not_le.1 hst
          refine ⟨s, y, by simp [hst], C, [], rfl, hs, fun z hz u hu => ?_, by simp⟩
          rw [hC] at hz
          rcases List.mem_append.1 hz with hz | hz
          · exact hst'.trans (h2 z hz u hu)
          · rcases List.mem_cons.1 hz with rfl | hz
            · cases hu.1.symm.trans h1.1
              exact hst'
            · exact lt_of_lt_of_le hst' (h3 z hz u hu)
    · rw [one_not hy]
      rcases ih with ⟨e, h⟩ | ⟨t, x, e, l, l', hC, h1, h2, h3⟩
      · left
        refine ⟨e, fun x hx => ?_⟩
        rcases List.mem_append.1 hx with hx | hx
        · exact h x hx
        · rw [List.mem_singleton.1 hx]; exact hy
      · right
        refine ⟨t, x, e, l, l' ++ [y], by simp [hC], h1, h2, fun z hz u hu => ?_⟩
        rcases List.mem_append.1 hz with hz | hz
        · exact h3 z hz u hu
        · rw [List.mem_singleton.1 hz] at hu
          exact absurd hu (hy u)

theorem loop_spec (w : World X Y) (C : List X) (g : ℚ) : ∀ (n k : Nat) (b : ℚ),
    (∀ {j t x y}, loop w C g n k b = some (j, t, x, y) → k ≤ j ∧ j < k + n ∧ y = w.out x ∧ Fastest w C j (b * g ^ (j - k)) t x ∧
      ∀ i, k ≤ i → i < j → ∀ x ∈ C, ∀ t, ¬ Ends w i (b * g ^ (i - k)) x t) ∧
    (loop w C g n k b = none → ∀ i, k ≤ i → i < k + n → ∀ x ∈ C, ∀ t, ¬ Ends w i (b * g ^ (i - k)) x t)
  | 0, k, b => ⟨fun h => by simp [loop] at h, fun _ i h1 h2 => by omega⟩
  | n + 1, k, b => by
    have shift : ∀ i, k + 1 ≤ i → b * g * g ^ (i - (k + 1)) = b * g ^ (i - k) := by
      intro i hi
      have : i - k = (i - (k + 1)) + 1 := by omega
      rw [this, pow_succ]
      ring
    obtain ⟨ih1, ih2⟩ := loop_spec w C g n (k + 1) (b * g)
    rcases foldl_spec w k b C with ⟨e, h⟩ | ⟨t0, x0, e, h⟩
    · have e' : loop w C g (n + 1) k b = loop w C g n (k + 1) (b * g) := by rw [loop, round, e]
      have h0 : ∀ x ∈ C, ∀ t, ¬ Ends w k (b * g ^ (k - k)) x t := by simpa using h
      rw [e']
      constructor
      · intro j t x y hl
        obtain ⟨a1, a2, a3, a4, a5⟩ := ih1 hl
        refine ⟨by omega, by omega, a3, shift j a1 ▸ a4, fun i h1 h2 => ?_⟩
        rcases Nat.eq_or_lt_of_le h1 with rfl | h1
        · exact h0
        · have := a5 i h1 h2
          rwa [shift i h1] at this
      · intro hl i h1 h2
        rcases Nat.eq_or_lt_of_le h1 with rfl | h1
        · exact h0
        · have := ih2 hl i h1 (by omega)
          rwa [shift i h1] at this
    · have e' : loop w C g (n + 1) k b = some (k, t0, x0, w.out x0) := by rw [loop, round, e]
      rw [e']
      constructor
      · intro j t x y hl
        simp only [Option.some.injEq, Prod.mk.injEq] at hl
        obtain ⟨rfl, rfl, rfl, rfl⟩ := hl
        exact ⟨le_rfl, by omega, rfl, by simpa using h, fun i h1 h2 => by omega⟩
      · intro hl; cases hl

/-- **C89 (winner).**  What `race` returns is a program of the collection with its result and its time in the last round.  It ends within the budget of that round, it is
the first of the fastest programs, and in no earlier round did any program end within the budget of that round. -/
theorem C89_winner {w : World X Y} {C : List X} {tmin g : ℚ} {n k : Nat} {t : ℚ} {x : X} {y : Y} (h : race w C tmin g n = some (k, t, x, y)) :
    x ∈ C ∧ y = w.out x ∧ Fastest w C k (tmin * g ^ k) t x ∧ ∀ i < k, ∀ x ∈ C, ∀ t, ¬ Ends w i (tmin * g ^ i) x t := by
  obtain ⟨_, _, h1, h2, h3⟩ := (loop_spec w C g n 0 tmin).1 h
  obtain ⟨l, l', hC, _⟩ := id h2
  exact ⟨by rw [hC]; simp, h1, by simpa using h2, fun i hi => by simpa using h3 i (Nat.zero_le _) hi⟩

/-- **C89 (ends).**  If the budget grows and one program never takes longer than `d`, `race` returns; the last round is the first one, or the budget of the round before
was less than `d`. -/
theorem C89_ends {w : World X Y} {C : List X} {tmin g d : ℚ} (h0 : 0 < tmin) (hg : 1 < g) {x : X} (hx : x ∈ C) (hd : ∀ k, ∃ t, w.dur k x = some t ∧ t ≤ d) :
    ∃ n k t z y, race w C tmin g n = some (k, t, z, y) ∧ (k = 0 ∨ tmin * g ^ k < d * g) := by
  obtain ⟨m, hm⟩ := pow_unbounded_of_one_lt (d / tmin) hg
  have hm' : d ≤ tmin * g ^ m := by
    have := (div_lt_iff₀ h0).1 hm
    linarith
  cases h : race w C tmin g (m + 1) with
  | none =>
    obtain ⟨t, h1, h2⟩ := hd m
    have := (loop_spec w C g (m + 1) 0 tmin).2 h m (Nat.zero_le _) (by omega) x hx t
    exact absurd ⟨h1, by simpa using h2.trans hm'⟩ this
  | some r =>
    obtain ⟨k, t, z, y⟩ := r
    refine ⟨m + 1, k, t, z, y, h, ?_⟩
    cases k with
    | zero => exact .inl rfl
    | succ k =>
      right
      obtain ⟨u, h1, h2⟩ := hd k
      have := (C89_winner h).2.2.2 k (by omega) x hx u
      have hlt : tmin * g ^ k < d := by
        by_contra hc
        exact this ⟨h1, h2.trans (not_lt.1 hc)⟩
      rw [pow_succ, ← mul_assoc]
      exact mul_lt_mul_of_pos_right hlt (by linarith)

theorem spent_le (w : World X Y) (k : Nat) (b : ℚ) (C : List X) : spent w C k b ≤ C.length * b := by
  unfold spent
  induction C with
  | nil => simp
  | cons x C ih =>
    rw [List.map_cons, List.sum_cons, List.length_cons]
    have : (match w.dur k x with
      | none => b
      | some t => if b < t then b else t) ≤ b := by
      split
      · exact le_rfl
      · split
        · exact le_rfl
        · rename_i h; exact not_lt.1 h
    push_cast
    exact (add_le_add this ih).trans (le_of_eq (by ring))

theorem total_le (w : World X Y) (C : List X) (tmin g : ℚ) (k : Nat) : total w C tmin g k * (g - 1) ≤ C.length * tmin * (g ^ (k + 1) - 1) ∨ g ≤ 1 := by
  by_cases hg : g ≤ 1
  · exact .inr hg
  left
  have hg := not_le.1 hg
  induction k with
  | zero =>
    have := spent_le w 0 tmin C
    simp only [total, zero_add, List.range_one, List.map_cons, List.map_nil, pow_zero, mul_one, List.sum_cons, List.sum_nil, add_zero, pow_one]
    exact mul_le_mul_of_nonneg_right this (by linarith)
  | succ k ih =>
    have e : total w C tmin g (k + 1) = total w C tmin g k + spent w C (k + 1) (tmin * g ^ (k + 1)) := by
      simp [total, List.range_succ (n := k + 1)]
    have h1 : spent w C (k + 1) (tmin * g ^ (k + 1)) * (g - 1) ≤ C.length * (tmin * g ^ (k + 1)) * (g - 1) :=
      mul_le_mul_of_nonneg_right (spent_le w _ _ C) (by linarith)
    have e2 : (C.length : ℚ) * tmin * (g ^ (k + 1 + 1) - 1) = C.length * tmin * (g ^ (k + 1) - 1) + C.length * (tmin * g ^ (k + 1)) * (g - 1) := by
      rw [pow_succ g (k + 1)]; ring
    rw [e, e2, add_mul]
    linarith

/-- **C89 (price).**  If one program never takes longer than `d`, all rounds together take less than `g² / (g - 1)` times the number of programs times `d`, or
are only one round.  With the default factor 2 this is four times the time of running every program for `d`. -/
theorem C89_price {w : World X Y} {C : List X} {tmin g d : ℚ} (h0 : 0 < tmin) (hg : 1 < g) {x : X} (hx : x ∈ C) (hd : ∀ k, ∃ t, w.dur k x = some t ∧ t ≤ d)
    {n k : Nat} {t : ℚ} {z : X} {y : Y} (h : race w C tmin g n = some (k, t, z, y)) :
    (k = 0 ∧ total w C tmin g k ≤ C.length * tmin) ∨ total w C tmin g k < g ^ 2 / (g - 1) * (C.length * d) := by
  cases k with
  | zero =>
    left
    refine ⟨rfl, ?_⟩
    simpa [total] using spent_le w 0 tmin C
  | succ k =>
    right
    obtain ⟨u, h1, h2⟩ := hd k
    have hn := (C89_winner h).2.2.2 k (by omega) x hx u
    have hlt : tmin * g ^ k < d := by
      by_contra hc
      exact hn ⟨h1, h2.trans (not_lt.1 hc)⟩
    have hC : (0 : ℚ) < C.length := by
      have := List.length_pos_of_mem hx
      exact_mod_cast this
    have hT := (total_le w C tmin g (k + 1)).resolve_right (not_le.2 hg)
    have hg1 : 0 < g - 1 := by linarith
    rw [div_mul_eq_mul_div, lt_div_iff₀ hg1]
    refine lt_of_le_of_lt hT ?_
    have e : (C.length : ℚ) * tmin * (g ^ (k + 1 + 1) - 1) = C.length * g ^ 2 * (tmin * g ^ k) - C.length * tmin := by ring
    have : (C.length : ℚ) * g ^ 2 * (tmin * g ^ k) < C.length * g ^ 2 * d := mul_lt_mul_of_pos_left hlt (by positivity)
    have h3 : 0 < (C.length : ℚ) * tmin := by positivity
    rw [e]
    linarith

/-- **C89 (no end).**  On an empty collection `race` never returns, and neither does it if the budget does not grow and all programs take longer than `tmin`. -/
theorem C89_never (w : World X Y) (C : List X) {tmin g : ℚ} (h : C = [] ∨ (0 ≤ tmin ∧ 0 ≤ g ∧ g ≤ 1 ∧ ∀ x ∈ C, ∀ k t, w.dur k x = some t → tmin < t)) (n : Nat) : race w C tmin g n = none := by
  cases hr : race w C tmin g n with
  | none => rfl
  | some r =>
    obtain ⟨k, t, x, y⟩ := r
    obtain ⟨h1, _, ⟨_, _, _, h2, _⟩, _⟩ := C89_winner hr
    rcases h with rfl | ⟨h0, g0, g1, h⟩
    · cases h1
    · have h3 := h x h1 k t h2.1
      have h4 : tmin * g ^ k ≤ tmin * 1 := mul_le_mul_of_nonneg_left (pow_le_one₀ g0 g1) h0
      have h5 := h2.2
      linarith

section Examples

/-- three programs that take 10, 7 and 7, and one that does not end -/
def demoW : World Nat String := ⟨fun x => if x = 1 then "first" else "other", fun _ x => [some 10, some 7, some 7, none][x]?.join⟩

example : race demoW [0, 1, 2, 3] 1 2 5 = some (3, 7, 1, "first") := by decide +kernel
example : race demoW [0, 1, 2, 3] 1 2 3 = none := by decide +kernel
example : total demoW [0, 1, 2, 3] 1 2 3 < 2 ^ 2 / (2 - 1) * (4 * 7) :=
  (C89_price (w := demoW) (C := [0, 1, 2, 3]) (tmin := 1) (g := 2) (d := 7) (by norm_num) (by norm_num) (x := 1) (by simp) (fun k => ⟨7, rfl, le_rfl⟩)
    (n := 5) (k := 3) (t := 7) (z := 1) (y := "first") (by decide +kernel)).resolve_left (by simp)
example : ∃ n k t z y, race demoW [0, 1, 2, 3] 1 2 n = some (k, t, z, y) ∧ (k = 0 ∨ (1 : ℚ) * 2 ^ k < 7 * 2) :=
  C89_ends (by norm_num) (by norm_num) (x := 1) (by simp) fun k => ⟨7, rfl, le_rfl⟩
example (n : Nat) : race demoW [0, 1, 2, 3] 1 1 n = none :=
  C89_never _ _ (.inr ⟨by norm_num, by norm_num, le_rfl, fun x hx k t h => by
    simp only [List.mem_cons, List.not_mem_nil, or_false] at hx
    rcases hx with rfl | rfl | rfl | rfl <;> simp [demoW] at h <;> rw [← h] <;> norm_num⟩) n

end Examples

end Race
end Verif
