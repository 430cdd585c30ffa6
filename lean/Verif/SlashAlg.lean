/-
The equations of the slash transformation, solved for the original items: the calculation behind `SlashThm.lean`,
for any weights `t`.
-/
import Verif.SlashSem

set_option linter.unusedSectionVars false
set_option linter.unusedSimpArgs false

namespace Verif
open Tm Heap Sem

namespace Slash
open Unfold (contribAt mapRule mapLit contribAt_self contribAt_congr contribAt_add contribAt_zero contribAt_smul)
open Classical
variable {W K : Type} [CSemi W] [CSemi K]

theorem contribAt_isum {ι : Type} (h : Tm) (L : List (Lit K)) (q : Tm) (R : List (Lit K)) (V : GTm → K) (c : ι → K) (u : ι → GTm → K) (y : GTm) :
    (isum fun i => c i * contribAt h L q R V (u i) y) = contribAt h L q R V (fun z => isum fun i => c i * u i z) y := by
  unfold contribAt
  rw [isum_congr fun i => mul_isum (c i) _, isum_comm]
  refine isum_congr fun a => ?_
  split
  · rw [mul_isum, isum_mul]
    exact isum_congr fun i => by ring
  · simp [isum_zero]

theorem contribAt_no_head {h : Tm} {L : List (Lit K)} {q : Tm} {R : List (Lit K)} {V u : GTm → K} {y : GTm} (hy : ¬ Inst h y) :
    contribAt h L q R V u y = 0 := by
  unfold contribAt
  exact (isum_congr fun a => if_neg fun e => hy ⟨_, e⟩).trans isum_zero

theorem sum_zero_of {α : Type} {l : List α} {f : α → K} (h : ∀ a ∈ l, f a = 0) : (l.map f).sum = 0 := by
  apply List.sum_eq_zero
  intro x hx
  obtain ⟨a, ha, rfl⟩ := List.mem_map.1 hx
  exact h a ha

theorem sum_add {α : Type} (l : List α) (f g : α → K) : (l.map fun a => f a + g a).sum = (l.map f).sum + (l.map g).sum := by
  induction l with
  | nil => simp
  | cons a l ih => simp only [List.map_cons, List.sum_cons, ih]; ring

theorem mul_sum {α : Type} (l : List α) (c : K) (f : α → K) : c * (l.map f).sum = (l.map fun a => c * f a).sum := by
  induction l with
  | nil => simp
  | cons a l ih => simp only [List.map_cons, List.sum_cons, mul_add, ih]

theorem sum_congr {α : Type} {l : List α} {f g : α → K} (h : ∀ a ∈ l, f a = g a) : (l.map f).sum = (l.map g).sum :=
  congrArg List.sum (List.map_congr_left h)

/-- disjoint terms -/
def Apart (nodes : List Tm) : Prop := nodes.Pairwise fun s s' => ∀ y, ¬ (Inst s y ∧ Inst s' y)

theorem sum_node {nodes : List Tm} (h : Apart nodes) {s : Tm} (hs : s ∈ nodes) {y : GTm} (hy : Inst s y) (c : Tm → K) :
    (nodes.map fun s => if Inst s y then c s else 0).sum = c s := by
  induction nodes with
  | nil => simp at hs
  | cons a l ih =>
    have h' := List.pairwise_cons.1 h
    simp only [List.map_cons, List.sum_cons]
    rcases List.mem_cons.1 hs with rfl | hs
    · rw [if_pos hy, sum_zero_of, add_zero]
      intro b hb
      rw [if_neg fun e => h'.1 b hb y ⟨hy, e⟩]
    · rw [if_neg fun e => h'.1 s hs y ⟨e, hy⟩, zero_add]
      exact ih h'.2 hs

theorem Apart.eq {nodes : List Tm} (h : Apart nodes) {s s' : Tm} (hs : s ∈ nodes) (hs' : s' ∈ nodes) {y : GTm} (hy : Inst s y) (hy' : Inst s' y) :
    s = s' := by
  by_contra hne
  induction nodes with
  | nil => simp at hs
  | cons a l ih =>
    have h' := List.pairwise_cons.1 h
    rcases List.mem_cons.1 hs with rfl | h1 <;> rcases List.mem_cons.1 hs' with rfl | h2
    · exact hne rfl
    · exact h'.1 _ h2 y ⟨hy, hy'⟩
    · exact h'.1 _ h1 y ⟨hy', hy⟩
    · exact ih h'.2 h1 h2

/-- a subgoal and what stands around it -/
abbrev Slot (W : Type) := Option (List (Lit W) × Tm × List (Lit W))

/-- the contribution of the rules `o` and `oo` made from `r` -/
noncomputable def gval (φ : W → K) (ot : Const) (X : Tm) (exo : Tm → Prop) (V : GTm → K) (r : WRule W) (s : Slot W) (y : GTm) : K :=
  match s with
  | none => contrib (mapRule φ r) V y
  | some (L, q, R) => if ∃ z, Inst X z ∧ Inst q z then 0
    else contribAt r.head (L.map (mapLit φ)) q (R.map (mapLit φ)) V (fun z => if exo q then V z else V (oitem ot z)) y

/-- the rule as a linear function of the subgoal at its position -/
noncomputable def sval (φ : W → K) (V : GTm → K) (r : WRule W) (s : Slot W) (u : GTm → K) (y : GTm) : K :=
  match s with
  | none => 0
  | some (L, q, R) => contribAt r.head (L.map (mapLit φ)) q (R.map (mapLit φ)) V u y

/-- sizes of the rules of the original program -/
noncomputable def pw (t : K) (exo : Tm → Prop) (s : Slot W) : K :=
  match s with
  | none => t ^ 3
  | some (_, q, _) => if exo q then t ^ 3 else t

/-- what the transformed program says about the values `V`, and the facts about the terms involved -/
structure Alg (φ : W → K) (t : K) (rs : List (WRule W × Slot W)) (nodes : List Tm) (sl ot : Const) (X : Tm) (V dd : GTm → K)
    (wrapped : WRule W → Prop) (usefulN exo exoH : Tm → Prop) (N : GTm → Prop) : Prop where
  body : ∀ rs' ∈ rs, ∀ L q R, rs'.2 = some (L, q, R) → rs'.1.body = L ++ .sub q :: R
  eqS : ∀ y x, Inst X x → V (sitem sl y x) = (if y = x then t else 0) + t * (rs.map fun r => sval φ V r.1 r.2 (fun z => V (sitem sl z x)) y).sum
  eqO : ∀ y, V (oitem ot y) = t * (rs.map fun r => if wrapped r.1 then gval φ ot X exo V r.1 r.2 y else 0).sum
  eqV : ∀ y, ¬ N y → V y = dd y + (t ^ 3 * (rs.map fun r => if wrapped r.1 then 0 else gval φ ot X exo V r.1 r.2 y).sum +
    (nodes.map fun s => if exo s then 0 else (if usefulN s ∧ Inst s y ∧ ¬ Inst X y then t ^ 2 * V (oitem ot y) else 0) +
      (nodes.map fun s' => t * (if Inst s y then isum fun x => if Inst X x ∧ Inst s' x then (if exoH s' then V x else V (oitem ot x)) * V (sitem sl y x) else 0 else 0)).sum).sum)
  apart : Apart nodes
  headN : ∀ r ∈ rs, ∀ y, Inst r.1.head y → ¬ N y
  qN : ∀ r ∈ rs, ∀ L q R, r.2 = some (L, q, R) → ∀ y, Inst q y → ¬ N y
  f1 : ∀ r ∈ rs, ∀ y, Inst r.1.head y → Inst X y → wrapped r.1
  f2 : ∀ r ∈ rs, ∀ y, Inst r.1.head y → ∀ r' ∈ rs, ∀ L q R, r'.2 = some (L, q, R) → Inst q y → wrapped r.1
  f3 : ∀ r ∈ rs, ∀ y, Inst r.1.head y → wrapped r.1 → ∀ s ∈ nodes, Inst s y → usefulN s
  f4 : ∀ r ∈ rs, ∀ y, Inst r.1.head y → ∃ s ∈ nodes, Inst s y ∧ ¬ exo s
  f6 : ∀ r ∈ rs, ∀ y, Inst r.1.head y → ∀ s ∈ nodes, Inst s y → ¬ exoH s
  f7 : ∀ s ∈ nodes, ¬ exoH s → ∀ x, Inst s x → Inst X x → dd x = 0
  f7' : ∀ s ∈ nodes, ¬ exo s → ¬ exoH s
  f8 : ∀ r ∈ rs, ∀ L q R, r.2 = some (L, q, R) → ¬ exo q → ∀ z, Inst q z → dd z = 0
  f9 : ∀ r ∈ rs, ∀ L q R, r.2 = some (L, q, R) → exo q → ∀ z, Inst q z → ∀ r' ∈ rs, ¬ Inst r'.1.head z
  f10 : ∀ r ∈ rs, ∀ L q R, r.2 = some (L, q, R) → ∀ z, Inst q z → ∃ s ∈ nodes, Inst s z
  f11 : ∀ r ∈ rs, ∀ L q R, r.2 = some (L, q, R) → (∃ z, Inst X z ∧ Inst q z) → ∀ z, Inst q z → Inst X z

namespace Alg
variable {φ : W → K} {t : K} {rs : List (WRule W × Slot W)} {nodes : List Tm} {sl ot : Const} {X : Tm} {V dd : GTm → K}
    {wrapped : WRule W → Prop} {usefulN exo exoH : Tm → Prop} {N : GTm → Prop}
variable (A : Alg φ t rs nodes sl ot X V dd wrapped usefulN exo exoH N)
include A

theorem contrib_no_head {r : WRule W} {y : GTm} (h : ¬ Inst r.head y) : contrib (mapRule φ r) V y = 0 :=
  contrib_zero fun θ e => h ⟨θ, e⟩

theorem gval_no_head {r : WRule W} {s : Slot W} {y : GTm} (h : ¬ Inst r.head y) : gval φ ot X exo V r s y = 0 := by
  unfold gval
  split
  · exact A.contrib_no_head h
  · split
    · rfl
    · exact contribAt_no_head h

theorem sval_no_head {r : WRule W} {s : Slot W} {u : GTm → K} {y : GTm} (h : ¬ Inst r.head y) : sval φ V r s u y = 0 := by
  unfold sval
  split
  · rfl
  · exact contribAt_no_head h

theorem O_no_head {y : GTm} (h : ∀ r ∈ rs, ¬ Inst r.1.head y) : V (oitem ot y) = 0 := by
  rw [A.eqO, sum_zero_of, mul_zero]
  intro r hr
  rw [A.gval_no_head (h r hr)]; simp

theorem S_no_head {y x : GTm} (h : ∀ r ∈ rs, ¬ Inst r.1.head y) (hx : Inst X x) : V (sitem sl y x) = if y = x then t else 0 := by
  rw [A.eqS y x hx, sum_zero_of, mul_zero, add_zero]
  intro r hr
  rw [A.sval_no_head (h r hr)]

theorem V_no_head {y : GTm} (hN : ¬ N y) (h : ∀ r ∈ rs, ¬ Inst r.1.head y) : V y = dd y := by
  rw [A.eqV y hN, A.O_no_head h, sum_zero_of, sum_zero_of]
  · simp
  · intro s hs
    split
    · rfl
    · rename_i he
      rw [sum_zero_of]
      · simp
      · intro s' hs'
        split
        · rename_i hy
          refine Eq.trans (congrArg (t * ·) ((isum_congr fun x => ?_).trans isum_zero)) (mul_zero t)
          by_cases hx : Inst X x ∧ Inst s' x
          · rw [if_pos hx, A.S_no_head h hx.1]
            by_cases e : y = x
            · subst e
              have := A.apart.eq hs hs' hy hx.2
              subst this
              rw [if_neg (A.f7' s hs he), A.O_no_head h, zero_mul]
            · rw [if_neg e, mul_zero]
          · rw [if_neg hx]
        · rw [mul_zero]
  · intro r hr
    rw [A.gval_no_head (h r hr)]; simp

/-- the value of `x` as a starting point of a spine -/
noncomputable def Ov (_ : Alg φ t rs nodes sl ot X V dd wrapped usefulN exo exoH N) (x : GTm) : K :=
  (nodes.map fun s' => if Inst s' x then (if exoH s' then V x else V (oitem ot x)) else 0).sum

theorem Ov_head {r : WRule W × Slot W} (hr : r ∈ rs) {x : GTm} (h : Inst r.1.head x) : A.Ov x = V (oitem ot x) := by
  obtain ⟨s, hs, hx, _⟩ := A.f4 r hr x h
  unfold Ov
  rw [sum_node A.apart hs hx, if_neg (A.f6 r hr x h s hs hx)]

theorem Ov_no_head {x : GTm} (hN : ¬ N x) (h : ∀ r ∈ rs, ¬ Inst r.1.head x) {s : Tm} (hs : s ∈ nodes) (hx : Inst s x) (hX : Inst X x) : A.Ov x = V x := by
  unfold Ov
  rw [sum_node A.apart hs hx]
  split
  · rfl
  · rename_i he
    rw [A.O_no_head h, A.V_no_head hN h, A.f7 s hs he x hx hX]

/-- everything that can be completed to `y` -/
noncomputable def J (A : Alg φ t rs nodes sl ot X V dd wrapped usefulN exo exoH N) (y : GTm) : K :=
  isum fun x => (if Inst X x then A.Ov x else 0) * V (sitem sl y x)

theorem V_head {r : WRule W × Slot W} (hr : r ∈ rs) {y : GTm} (h : Inst r.1.head y) {s : Tm} (hs : s ∈ nodes) (hy : Inst s y) (he : ¬ exo s) :
    V y = dd y + (t ^ 3 * (rs.map fun r => if wrapped r.1 then 0 else gval φ ot X exo V r.1 r.2 y).sum +
      ((if usefulN s ∧ ¬ Inst X y then t ^ 2 * V (oitem ot y) else 0) + t * A.J y)) := by
  rw [A.eqV y (A.headN r hr y h)]
  congr 2
  have e1 : ∀ s, (if exo s then 0 else (if usefulN s ∧ Inst s y ∧ ¬ Inst X y then t ^ 2 * V (oitem ot y) else 0) +
      (nodes.map fun s' => t * (if Inst s y then isum fun x => if Inst X x ∧ Inst s' x then (if exoH s' then V x else V (oitem ot x)) * V (sitem sl y x) else 0 else 0)).sum) =
      if Inst s y then (if exo s then 0 else (if usefulN s ∧ ¬ Inst X y then t ^ 2 * V (oitem ot y) else 0) +
      (nodes.map fun s' => t * (isum fun x => if Inst X x ∧ Inst s' x then (if exoH s' then V x else V (oitem ot x)) * V (sitem sl y x) else 0)).sum) else 0 := by
    intro s
    by_cases h1 : Inst s y
    · simp [h1]
    · simp [h1]
  rw [sum_congr fun s _ => e1 s, sum_node A.apart hs hy, if_neg he, ← mul_sum, isum_list]
  congr 2
  unfold J Ov
  refine isum_congr fun x => ?_
  by_cases hx : Inst X x
  · simp only [hx, true_and, if_true]
    rw [← List.sum_map_mul_right]
    refine sum_congr fun s' _ => ?_
    split <;> simp
  · simp only [hx, false_and, if_false, zero_mul]
    exact sum_zero_of fun _ _ => rfl

theorem J_no_head {y : GTm} (h : ∀ r ∈ rs, ¬ Inst r.1.head y) : A.J y = (if Inst X y then A.Ov y else 0) * t := by
  unfold J
  rw [← isum_single y (fun x => (if Inst X x then A.Ov x else 0) * t)]
  refine isum_congr fun x => ?_
  by_cases hx : Inst X x
  · rw [A.S_no_head h hx]
    by_cases e : x = y
    · simp [e]
    · simp [e, Ne.symm e]
  · simp [hx]

/-- the value of an instance of the subgoal of a position -/
theorem V_sub {r : WRule W × Slot W} (hr : r ∈ rs) {L : List (Lit W)} {q : Tm} {R : List (Lit W)} (hq : r.2 = some (L, q, R)) (he : ¬ exo q)
    {z : GTm} (hz : Inst q z) : V z = (if Inst X z then 0 else t ^ 2 * V (oitem ot z)) + t * A.J z := by
  by_cases h : ∀ r' ∈ rs, ¬ Inst r'.1.head z
  · have hN := A.qN r hr L q R hq z hz
    have h0 : V z = 0 := by rw [A.V_no_head hN h, A.f8 r hr L q R hq he z hz]
    rw [A.J_no_head h, A.O_no_head h]
    obtain ⟨s, hs, hsz⟩ := A.f10 r hr L q R hq z hz
    by_cases hX : Inst X z
    · rw [A.Ov_no_head hN h hs hsz hX, h0]; simp
    · rw [h0]; simp [hX]
  · push Not at h
    obtain ⟨r', hr', hh⟩ := h
    obtain ⟨s, hs, hsz, hse⟩ := A.f4 r' hr' z hh
    rw [A.V_head hr' hh hs hsz hse, A.f8 r hr L q R hq he z hz, zero_add, sum_zero_of, mul_zero, zero_add]
    · have := A.f3 r' hr' z hh (A.f2 r' hr' z hh r hr L q R hq hz) s hs hsz
      by_cases hX : Inst X z <;> simp [this, hX]
    · intro r2 hr2
      by_cases h2 : Inst r2.1.head z
      · rw [if_pos (A.f2 r2 hr2 z h2 r hr L q R hq hz)]
      · rw [A.gval_no_head h2]; simp

theorem rule_split {r : WRule W × Slot W} (hr : r ∈ rs) (y : GTm) :
    pw t exo r.2 * contrib (mapRule φ r.1) V y = t ^ 3 * gval φ ot X exo V r.1 r.2 y + t * (t * sval φ V r.1 r.2 A.J y) := by
  obtain ⟨r, s⟩ := r
  cases s with
  | none => simp [pw, gval, sval]
  | some lqr =>
    obtain ⟨L, q, R⟩ := lqr
    have hb := A.body _ hr L q R rfl
    have hc : ∀ y, contrib (mapRule φ r) V y = contribAt r.head (L.map (mapLit φ)) q (R.map (mapLit φ)) V V y := fun y => by
      rw [contribAt_self]
      unfold mapRule
      simp only at hb
      rw [hb]; simp [mapLit]
    simp only [pw, gval, sval, hc]
    by_cases he : exo q
    · rw [if_pos he]
      have hh : ∀ z, Inst q z → ∀ r' ∈ rs, ¬ Inst r'.1.head z := A.f9 _ hr L q R rfl he
      have hJ : ∀ θ, A.J (gsub θ q) = (if Inst X (gsub θ q) then t else 0) * V (gsub θ q) := fun θ => by
        rw [A.J_no_head (hh _ ⟨θ, rfl⟩)]
        obtain ⟨s, hs, hsz⟩ := A.f10 _ hr L q R rfl _ ⟨θ, rfl⟩
        by_cases hX : Inst X (gsub θ q)
        · rw [if_pos hX, if_pos hX, A.Ov_no_head (A.qN _ hr L q R rfl _ ⟨θ, rfl⟩) (hh _ ⟨θ, rfl⟩) hs hsz hX, mul_comm]
        · simp [hX]
      by_cases hu : ∃ z, Inst X z ∧ Inst q z
      · have hX := A.f11 _ hr L q R rfl hu
        rw [if_pos hu, contribAt_congr (u := A.J) (w := fun z => t * V z) (fun θ => by rw [hJ, if_pos (hX _ ⟨θ, rfl⟩)]), contribAt_smul]
        ring
      · rw [if_neg hu, contribAt_congr (u := A.J) (w := fun _ => 0) (fun θ => by
          rw [hJ, if_neg (fun h => hu ⟨_, h, θ, rfl⟩), zero_mul]), contribAt_zero]
        simp [he]
    · rw [if_neg he]
      have hV : ∀ θ, V (gsub θ q) = (if Inst X (gsub θ q) then 0 else t ^ 2 * V (oitem ot (gsub θ q))) + t * A.J (gsub θ q) :=
        fun θ => A.V_sub hr rfl he ⟨θ, rfl⟩
      rw [contribAt_congr (u := V) (w := fun z => (if Inst X z then 0 else t ^ 2 * V (oitem ot z)) + t * A.J z) hV, contribAt_add, contribAt_smul]
      by_cases hu : ∃ z, Inst X z ∧ Inst q z
      · have hX := A.f11 _ hr L q R rfl hu
        rw [if_pos hu, contribAt_congr (u := fun z => if Inst X z then 0 else t ^ 2 * V (oitem ot z)) (w := fun _ => 0)
          (fun θ => by simp only [if_pos (hX _ ⟨θ, rfl⟩)]), contribAt_zero]
        ring
      · rw [if_neg hu, contribAt_congr (u := fun z => if Inst X z then 0 else t ^ 2 * V (oitem ot z)) (w := fun z => t ^ 2 * V (oitem ot z))
          (fun θ => by simp only [if_neg (fun h => hu ⟨_, h, θ, rfl⟩)]), contribAt_smul]
        simp only [if_neg he]
        ring

/-- **The values of the original items solve the equations of the original program.** -/
theorem main (y : GTm) (hN : ¬ N y) : V y = dd y + (rs.map fun r => pw t exo r.2 * contrib (mapRule φ r.1) V y).sum := by
  by_cases h : ∀ r' ∈ rs, ¬ Inst r'.1.head y
  · rw [A.V_no_head hN h, sum_zero_of, add_zero]
    intro r hr
    rw [A.contrib_no_head (h r hr), mul_zero]
  · push Not at h
    obtain ⟨r', hr', hh⟩ := h
    obtain ⟨s, hs, hsz, hse⟩ := A.f4 r' hr' y hh
    rw [A.V_head hr' hh hs hsz hse, sum_congr fun r hr => A.rule_split hr y, sum_add, ← mul_sum, ← mul_sum, ← mul_sum]
    congr 1
    -- the part that goes through the spine
    have hJ : A.J y = (if Inst X y then A.Ov y * t else 0) + t * (rs.map fun r => sval φ V r.1 r.2 A.J y).sum := by
      have e1 : ∀ x, (if Inst X x then A.Ov x else 0) * V (sitem sl y x) =
          (if x = y then (if Inst X x then A.Ov x * t else 0) else 0) +
            t * ((rs.map fun r => (if Inst X x then A.Ov x else 0) * sval φ V r.1 r.2 (fun z => V (sitem sl z x)) y).sum) := by
        intro x
        by_cases hx : Inst X x
        · rw [A.eqS y x hx, ← mul_sum]
          by_cases e : x = y
          · subst e; simp only [hx, if_true]; ring
          · simp [hx, e, Ne.symm e]; ring
        · simp only [hx, if_false, zero_mul]
          rw [sum_zero_of fun _ _ => rfl]
          simp
      have e0 : A.J y = isum fun x => (if Inst X x then A.Ov x else 0) * V (sitem sl y x) := rfl
      rw [e0, isum_congr e1, isum_add, isum_single, ← mul_isum, ← isum_list]
      congr 2
      refine sum_congr fun r hr => ?_
      obtain ⟨r, s⟩ := r
      cases s with
      | none => simp only [sval, mul_zero]; exact isum_zero
      | some lqr =>
        simp only [sval]
        rw [contribAt_isum]
        rfl
    rw [hJ]
    have hg : (rs.map fun r => gval φ ot X exo V r.1 r.2 y).sum =
        (rs.map fun r => if wrapped r.1 then 0 else gval φ ot X exo V r.1 r.2 y).sum +
        (rs.map fun r => if wrapped r.1 then gval φ ot X exo V r.1 r.2 y else 0).sum := by
      rw [← sum_add]
      refine sum_congr fun r _ => ?_
      split <;> simp
    rw [hg]
    by_cases hX : Inst X y
    · have hz : (rs.map fun r => if wrapped r.1 then 0 else gval φ ot X exo V r.1 r.2 y).sum = 0 := sum_zero_of fun r hr => by
        by_cases h2 : Inst r.1.head y
        · rw [if_pos (A.f1 r hr y h2 hX)]
        · rw [A.gval_no_head h2]; simp
      rw [hz, if_neg (by tauto), if_pos hX, A.Ov_head hr' hh, A.eqO]
      ring
    · by_cases hu : usefulN s
      · rw [if_pos ⟨hu, hX⟩, if_neg hX, A.eqO]
        ring
      · have hz : (rs.map fun r => if wrapped r.1 then gval φ ot X exo V r.1 r.2 y else 0).sum = 0 := sum_zero_of fun r hr => by
          by_cases h2 : Inst r.1.head y
          · rw [if_neg fun hw => hu (A.f3 r hr y h2 hw s hs hsz)]
          · rw [A.gval_no_head h2]; simp
        rw [hz, if_neg (by tauto), if_neg hX]
        ring

end Alg
end Slash
end Verif
