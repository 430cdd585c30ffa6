/-
Values graded by the size of derivations: families `ℤ → W`, added pointwise and multiplied by convolution.
Used to say what the measures of fold/unfold safety bound (`Verif.MeasureThm`).
-/
import Verif.UnfoldLift
import Mathlib.Tactic.Abel
import Mathlib.Tactic.Linarith

set_option linter.unusedSectionVars false
set_option linter.unusedSimpArgs false

namespace Verif
open Tm Heap Sem

/-- a value for each size -/
def Gr (W : Type) : Type := ℤ → W

namespace Gr
variable {W : Type} [CSemi W]

@[ext] theorem ext' {A B : Gr W} (h : ∀ n, A n = B n) : A = B := funext h

/-- `f` summed over all integers, moved by `c` -/
theorem isum_shift (c : ℤ) (f : ℤ → W) : isum (fun k : ℤ => f (k + c)) = isum f := isum_equiv (Equiv.addRight c) f
theorem isum_refl (c : ℤ) (f : ℤ → W) : isum (fun k : ℤ => f (c - k)) = isum f := isum_equiv (Equiv.subLeft c) f

instance : Zero (Gr W) := ⟨fun _ => 0⟩
instance : Add (Gr W) := ⟨fun A B n => A n + B n⟩
/-- everything at size `k` -/
def at' (k : ℤ) (c : W) : Gr W := fun n => if n = k then c else 0
instance : One (Gr W) := ⟨at' 0 1⟩
instance : Mul (Gr W) := ⟨fun A B n => isum fun k : ℤ => A k * B (n - k)⟩

theorem add_def (A B : Gr W) (n : ℤ) : (A + B) n = A n + B n := rfl
theorem zero_def (n : ℤ) : (0 : Gr W) n = 0 := rfl
theorem one_def : (1 : Gr W) = at' 0 1 := rfl
theorem mul_def (A B : Gr W) (n : ℤ) : (A * B) n = isum fun k : ℤ => A k * B (n - k) := rfl

theorem at_mul (k : ℤ) (c : W) (A : Gr W) (n : ℤ) : (at' k c * A) n = c * A (n - k) := by
  rw [mul_def, ← isum_single k (fun i => c * A (n - i))]
  refine isum_congr fun i => ?_
  unfold at'
  split <;> simp

private theorem mul_comm' (A B : Gr W) : A * B = B * A := by
  ext n
  rw [mul_def, mul_def, ← isum_refl n]
  refine isum_congr fun k => ?_
  rw [mul_comm, show n - (n - k) = k by ring]

private theorem mul_assoc' (A B C : Gr W) : A * B * C = A * (B * C) := by
  ext n
  simp only [mul_def]
  calc (isum fun k : ℤ => (isum fun j : ℤ => A j * B (k - j)) * C (n - k))
      = isum fun k : ℤ => isum fun j : ℤ => A j * B (k - j) * C (n - k) := isum_congr fun k => isum_mul _ _
    _ = isum fun j : ℤ => isum fun k : ℤ => A j * B (k - j) * C (n - k) := isum_comm _
    _ = isum fun j : ℤ => isum fun k : ℤ => A j * B (k + j - j) * C (n - (k + j)) :=
        isum_congr fun j => (isum_shift j fun k => A j * B (k - j) * C (n - k)).symm
    _ = isum fun j : ℤ => A j * isum fun k : ℤ => B k * C (n - j - k) := isum_congr fun j => by
        rw [mul_isum]
        refine isum_congr fun k => ?_
        rw [show k + j - j = k by ring, show n - (k + j) = n - j - k by ring, mul_assoc]

private theorem one_mul' (A : Gr W) : 1 * A = A := by
  ext n; rw [one_def, at_mul, one_mul, sub_zero]

private theorem mul_add' (A B C : Gr W) : A * (B + C) = A * B + A * C := by
  ext n
  simp only [mul_def, add_def, mul_add, isum_add]

private theorem zero_mul' (A : Gr W) : 0 * A = 0 := by
  ext n; simp only [mul_def, zero_def, zero_mul, isum_zero]

instance : CommSemiring (Gr W) where
  add_assoc A B C := by ext n; simp only [add_def, add_assoc]
  zero_add A := by ext n; simp only [add_def, zero_def, zero_add]
  add_zero A := by ext n; simp only [add_def, zero_def, add_zero]
  add_comm A B := by ext n; simp only [add_def, add_comm]
  nsmul := nsmulRec
  left_distrib := mul_add'
  right_distrib A B C := by rw [mul_comm', mul_add', mul_comm' C A, mul_comm' C B]
  zero_mul := zero_mul'
  mul_zero A := by rw [mul_comm', zero_mul']
  mul_assoc := mul_assoc'
  one_mul := one_mul'
  mul_one A := by rw [mul_comm', one_mul']
  mul_comm := mul_comm'

instance : CSemi (Gr W) where
  isum f := fun n => isum fun i => f i n
  isum_equiv e f := by ext n; exact isum_equiv e fun k => f k n
  isum_empty f := by ext n; exact isum_empty _
  isum_unit f := by ext n; exact isum_unit _
  isum_sum f := by ext n; exact isum_sum _
  isum_sigma f := by ext n; exact isum_sigma fun p => f p n
  mul_isum A f := by
    ext n
    show (isum fun k : ℤ => A k * isum fun i => f i (n - k)) = isum fun i => isum fun k : ℤ => A k * f i (n - k)
    rw [isum_comm]
    exact isum_congr fun k => mul_isum _ _

theorem isum_def {ι : Type} (f : ι → Gr W) (n : ℤ) : (isum f) n = isum fun i => f i n := rfl

theorem sum_def (l : List (Gr W)) (n : ℤ) : l.sum n = (l.map fun A => A n).sum := by
  induction l with
  | nil => rfl
  | cons A l ih => rw [List.sum_cons, add_def, ih, List.map_cons, List.sum_cons]

/-- a value of size zero -/
def lift (c : W) : Gr W := at' 0 c
/-- one, of size `k` -/
def mono (k : ℤ) : Gr W := at' k 1

theorem lift_mul (c : W) (A : Gr W) (n : ℤ) : (lift c * A) n = c * A n := by rw [lift, at_mul, sub_zero]
theorem mono_mul (k : ℤ) (A : Gr W) (n : ℤ) : ((mono k : Gr W) * A) n = A (n - k) := by rw [mono, at_mul, one_mul]
theorem mono_add (j k : ℤ) : mono (j + k) = (mono j * mono k : Gr W) := by
  ext n
  rw [mono_mul]
  unfold mono at'
  congr 1
  simp only [eq_iff_iff]
  omega

theorem lifting : Unfold.Lifting (lift : W → Gr W) where
  one := rfl
  inf := by
    ext n
    simp only [infty, isum_def, one_def]
    unfold lift at'
    split
    · rfl
    · exact isum_zero.symm

/-! ### Sums up to a size -/

/-- everything of size at most `n` -/
def cum (n : ℤ) (A : Gr W) : W := isum fun k : ℤ => if k ≤ n then A k else 0

theorem cum_add (n : ℤ) (A B : Gr W) : cum n (A + B) = cum n A + cum n B := by
  unfold cum
  rw [← isum_add]
  refine isum_congr fun k => ?_
  split
  · rfl
  · simp

theorem cum_zero (n : ℤ) : cum n (0 : Gr W) = 0 := by
  unfold cum
  refine (isum_congr fun k => ?_).trans isum_zero
  split <;> rfl

theorem cum_isum {ι : Type} (n : ℤ) (f : ι → Gr W) : cum n (isum f) = isum fun i => cum n (f i) := by
  unfold cum
  rw [isum_comm]
  refine isum_congr fun k => ?_
  split
  · rfl
  · exact isum_zero.symm

theorem cum_list (n : ℤ) (l : List (Gr W)) : cum n l.sum = (l.map (cum n)).sum := by
  induction l with
  | nil => exact cum_zero n
  | cons A l ih => rw [List.sum_cons, cum_add, ih, List.map_cons, List.sum_cons]

theorem cum_mul (n : ℤ) (A B : Gr W) : cum n (A * B) = isum fun k : ℤ => A k * cum (n - k) B := by
  unfold cum
  calc (isum fun m : ℤ => if m ≤ n then (A * B) m else 0)
      = isum fun m : ℤ => isum fun k : ℤ => A k * (if m ≤ n then B (m - k) else 0) := isum_congr fun m => by
        split
        · exact mul_def A B m
        · simp [isum_zero]
    _ = isum fun k : ℤ => isum fun m : ℤ => A k * (if m ≤ n then B (m - k) else 0) := isum_comm _
    _ = isum fun k : ℤ => isum fun m : ℤ => A k * (if m + k ≤ n then B (m + k - k) else 0) :=
        isum_congr fun k => (isum_shift k fun m => A k * (if m ≤ n then B (m - k) else 0)).symm
    _ = _ := isum_congr fun k => by
        rw [mul_isum]
        refine isum_congr fun m => ?_
        rw [show m + k - k = m by ring]
        congr 1
        by_cases h : m + k ≤ n
        · rw [if_pos h, if_pos (by omega)]
        · rw [if_neg h, if_neg (by omega)]

theorem cum_at_mul (n k : ℤ) (c : W) (A : Gr W) : cum n (at' k c * A) = c * cum (n - k) A := by
  rw [cum_mul, ← isum_single k (fun i => c * cum (n - i) A)]
  refine isum_congr fun i => ?_
  unfold at'
  split <;> simp

theorem cum_mono_mul (n k : ℤ) (A : Gr W) : cum n (mono k * A) = cum (n - k) A := by rw [mono, cum_at_mul, one_mul]
theorem cum_lift_mul (n : ℤ) (c : W) (A : Gr W) : cum n (lift c * A) = c * cum n A := by rw [lift, cum_at_mul, sub_zero]

theorem cum_at (n k : ℤ) (c : W) : cum n (at' k c) = if k ≤ n then c else 0 := by
  unfold cum
  rw [← isum_single k (fun i => if i ≤ n then c else 0)]
  refine isum_congr fun i => ?_
  unfold at'
  split <;> split <;> simp_all

theorem cum_lift {n : ℤ} (h : 0 ≤ n) (c : W) : cum n (lift c) = c := by rw [lift, cum_at, if_pos h]

/-- nothing below size `s` -/
def Supp (s : ℤ) (A : Gr W) : Prop := ∀ n < s, A n = 0

theorem Supp.le {s t : ℤ} {A : Gr W} (h : Supp s A) (ht : t ≤ s) : Supp t A := fun n hn => h n (lt_of_lt_of_le hn ht)
theorem supp_zero (s : ℤ) : Supp s (0 : Gr W) := fun _ _ => rfl
theorem Supp.add {s : ℤ} {A B : Gr W} (hA : Supp s A) (hB : Supp s B) : Supp s (A + B) := fun n hn => by
  rw [add_def, hA n hn, hB n hn, add_zero]
theorem supp_isum {ι : Type} {s : ℤ} {f : ι → Gr W} (h : ∀ i, Supp s (f i)) : Supp s (isum f) := fun n hn => by
  rw [isum_def, isum_congr fun i => h i n hn, isum_zero]
theorem supp_sum {s : ℤ} {l : List (Gr W)} (h : ∀ A ∈ l, Supp s A) : Supp s l.sum := by
  induction l with
  | nil => exact supp_zero s
  | cons A l ih =>
    rw [List.sum_cons]
    exact (h A (by simp)).add (ih fun B hB => h B (List.mem_cons_of_mem _ hB))
theorem Supp.mul {s t : ℤ} {A B : Gr W} (hA : Supp s A) (hB : Supp t B) : Supp (s + t) (A * B) := fun n hn => by
  rw [mul_def, ← isum_zero (ι := ℤ)]
  refine isum_congr fun k => ?_
  by_cases h : k < s
  · rw [hA k h, zero_mul]
  · rw [hB (n - k) (by omega), mul_zero]
theorem supp_at (k : ℤ) (c : W) : Supp k (at' k c) := fun n hn => by
  unfold at'; rw [if_neg (by omega)]
theorem cum_supp {s n : ℤ} {A : Gr W} (h : Supp s A) (hn : n < s) : cum n A = 0 := by
  unfold cum
  refine (isum_congr fun k => ?_).trans isum_zero
  split
  · exact h k (by omega)
  · rfl

/-! ### Agreement up to a size -/

/-- the same up to size `n` -/
def Agree (n : ℤ) (A B : Gr W) : Prop := ∀ k ≤ n, A k = B k

theorem Agree.refl (n : ℤ) (A : Gr W) : Agree n A A := fun _ _ => rfl
theorem Agree.mul {n : ℤ} {A A' B B' : Gr W} (hA : Agree n A A') (hB : Agree n B B') (sA : Supp 0 A) (sA' : Supp 0 A') (sB : Supp 0 B)
    (sB' : Supp 0 B') : Agree n (A * B) (A' * B') := fun k hk => by
  rw [mul_def, mul_def]
  refine isum_congr fun i => ?_
  by_cases h1 : i < 0
  · rw [sA i h1, sA' i h1, zero_mul, zero_mul]
  by_cases h2 : k - i < 0
  · rw [sB _ h2, sB' _ h2, mul_zero, mul_zero]
  rw [hA i (by omega), hB (k - i) (by omega)]
theorem agree_isum {ι : Type} {n : ℤ} {f g : ι → Gr W} (h : ∀ i, Agree n (f i) (g i)) : Agree n (isum f) (isum g) := fun k hk => by
  rw [isum_def, isum_def]
  exact isum_congr fun i => h i k hk
theorem agree_mono {n k : ℤ} (hk : 1 ≤ k) {A B : Gr W} (h : Agree n A B) : Agree (n + 1) (mono k * A) (mono k * B) := fun i hi => by
  rw [mono_mul, mono_mul]
  exact h _ (by omega)

end Gr

/-! ### Order -/

namespace Gr
variable {W : Type} [OSemi W]

theorem cum_le_cum {m n : ℤ} (h : m ≤ n) (A : Gr W) : cum m A ≤ cum n A := by
  unfold cum
  refine OSemi.isum_le fun k => ?_
  split
  · rw [if_pos (by omega)]
  · exact OSemi.zero_le' _

/-- `A` is reached no earlier than `B`: up to every size, `A` has at most the value of `B` -/
def Late (A B : Gr W) : Prop := ∀ n, cum n A ≤ cum n B

theorem Late.refl (A : Gr W) : Late A A := fun _ => le_refl _
theorem Late.of_eq {A B : Gr W} (h : A = B) : Late A B := h ▸ .refl A
theorem Late.trans {A B C : Gr W} (h : Late A B) (h' : Late B C) : Late A C := fun n => le_trans (h n) (h' n)
theorem Late.add {A A' B B' : Gr W} (h : Late A A') (h' : Late B B') : Late (A + B) (A' + B') := fun n => by
  rw [cum_add, cum_add]; exact OSemi.add_le (h n) (h' n)
theorem Late.mul_right {A B : Gr W} (h : Late A B) (C : Gr W) : Late (C * A) (C * B) := fun n => by
  rw [cum_mul, cum_mul]
  exact OSemi.isum_le fun k => OSemi.mul_le (le_refl _) (h _)
theorem Late.mul {A A' B B' : Gr W} (h : Late A A') (h' : Late B B') : Late (A * B) (A' * B') :=
  (h'.mul_right A).trans (by rw [mul_comm A, mul_comm A']; exact h.mul_right B')
theorem late_isum {ι : Type} {f g : ι → Gr W} (h : ∀ i, Late (f i) (g i)) : Late (isum f) (isum g) := fun n => by
  rw [cum_isum, cum_isum]
  exact OSemi.isum_le fun i => h i n
theorem late_mono {j k : ℤ} (h : j ≤ k) (A : Gr W) : Late (mono k * A) (mono j * A) := fun n => by
  rw [cum_mono_mul, cum_mono_mul]
  exact cum_le_cum (by omega) A
theorem late_sum {α : Type} {l : List α} {f g : α → Gr W} (h : ∀ a ∈ l, Late (f a) (g a)) : Late (l.map f).sum (l.map g).sum := by
  induction l with
  | nil => exact .refl _
  | cons a l ih =>
    simp only [List.map_cons, List.sum_cons]
    exact (h a (by simp)).add (ih fun b hb => h b (List.mem_cons_of_mem _ hb))

/-- products of what is reached separately are reached together -/
theorem cum_mul_le (m n : ℤ) (A B : Gr W) : cum m A * cum n B ≤ cum (m + n) (A * B) := by
  rw [cum_mul]
  unfold cum
  rw [isum_mul]
  refine OSemi.isum_le fun k => ?_
  split
  · refine OSemi.mul_le (le_refl _) ?_
    exact cum_le_cum (by omega) B
  · rw [zero_mul]; exact OSemi.zero_le' _

/-- a product of size at most `n` has factors that leave room for each other -/
theorem mul_cum_le {a b n : ℤ} {A B : Gr W} (hA : Supp a A) (hB : Supp b B) : cum n (A * B) ≤ cum (n - b) A * cum (n - a) B := by
  rw [cum_mul]
  conv_rhs => unfold cum
  rw [isum_mul]
  refine OSemi.isum_le fun k => ?_
  by_cases h1 : k < a
  · rw [hA k h1, zero_mul]; exact OSemi.zero_le' _
  by_cases h2 : k ≤ n - b
  · rw [if_pos h2]
    refine OSemi.mul_le (le_refl _) ?_
    exact cum_le_cum (by omega) B
  · rw [cum_supp hB (by omega), mul_zero]; exact OSemi.zero_le' _

end Gr
end Verif
