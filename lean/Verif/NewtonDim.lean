/-
Property C75: which derivations the Newton solver has counted after `T` iterations (`newton`, `/repo/dyna/program.py`
1095-1140, model `Newton.lean`), in terms of the dimension of derivations (`Derivation.dimension`,
`/repo/dyna/derivations.py` 109-118, model `Deriv.lean`).

Spec: `Dim n d` says that the dimension (Strahler number) of `d` is less than `n`, where only subgoals count as branches.
-/
import Verif.NewtonThm
import Verif.DerivThm

set_option linter.unusedSectionVars false
set_option linter.unusedSimpArgs false

namespace Verif
open Tm Heap

namespace Newton
open Solver (value litVal instVal contrib rhs Safe GSub InRule instAt)
open Query
open Naive
open LinSolve (Plain)
open Sem (TV)
open Deriv (leaves leavesL item Fits Top Valid ValidL IsDeriv dimension)
variable {K : Type} [CommSemiring K]

/-! ### Spec -/

/-- The dimension is less than `n`: on a node, all branches but one have a dimension less than `n - 1`.  Leaves do not
count as branches. -/
inductive Dim : Nat → Deriv K → Prop
  | leaf (n : Nat) (d : Deriv K) : d.base = true → Dim n d
  | fact (n i : Nat) (x : Tm) : Dim (n + 1) (.node i x [])
  | node (n i : Nat) (x : Tm) (L : List (Deriv K)) (k : Deriv K) (R : List (Deriv K)) : (∀ d ∈ L, Dim n d) → Dim (n + 1) k → (∀ d ∈ R, Dim n d) →
      Dim (n + 1) (.node i x (L ++ k :: R))

/-- constants occur only as the whole body of a rule -/
inductive Pure : Deriv K → Prop
  | const (k : K) : Pure (.const k)
  | fact (i : Nat) (x : Tm) (k : K) : Pure (.node i x [.const k])
  | node (i : Nat) (x : Tm) (ks : List (Deriv K)) : (∀ d ∈ ks, d.base = false) → (∀ d ∈ ks, Pure d) → Pure (.node i x ks)

/-! ### Dimensions -/

theorem Dim.mono {n : Nat} {d : Deriv K} (h : Dim n d) : Dim (n + 1) d := by
  induction h with
  | leaf n d h => exact .leaf _ _ h
  | fact n i x => exact .fact _ _ _
  | node n i x L k R _ _ _ ih1 ih2 ih3 => exact .node _ _ _ _ _ _ ih1 ih2 ih3

theorem Dim.le {n m : Nat} {d : Deriv K} (h : Dim n d) (hm : n ≤ m) : Dim m d := by
  induction hm with
  | refl => exact h
  | step _ ih => exact ih.mono

theorem Dim.inv {n i : Nat} {x : Tm} {ks : List (Deriv K)} (h : Dim n (.node i x ks)) : ∃ m, n = m + 1 ∧
    (ks = [] ∨ ∃ L k R, ks = L ++ k :: R ∧ (∀ d ∈ L, Dim m d) ∧ Dim (m + 1) k ∧ ∀ d ∈ R, Dim m d) := by
  generalize hd : (Deriv.node i x ks : Deriv K) = d at h
  cases h with
  | leaf _ _ h => subst hd; simp [Deriv.base] at h
  | fact m j y => cases hd; exact ⟨m, rfl, .inl rfl⟩
  | node m j y L k R h1 h2 h3 => cases hd; exact ⟨m, rfl, .inr ⟨L, k, R, rfl, h1, h2, h3⟩⟩

theorem size_mem {ks : List (Deriv K)} {d : Deriv K} (h : d ∈ ks) : Deriv.size d ≤ Deriv.sizeL ks := by
  induction ks with
  | nil => simp at h
  | cons a ks ih =>
    rw [Deriv.sizeL]
    rcases List.mem_cons.1 h with rfl | h
    · omega
    · have := ih h; omega

/-- induction over trees -/
theorem deriv_rec {P : Deriv K → Prop} (hc : ∀ k, P (.const k)) (hb : ∀ x y, P (.bi x y))
    (hn : ∀ i x ks, (∀ d ∈ ks, P d) → P (.node i x ks)) : ∀ d, P d := by
  have : ∀ n d, Deriv.size d ≤ n → P d := by
    intro n
    induction n with
    | zero =>
      intro d h
      cases d with
      | const k => exact hc k
      | bi x y => exact hb x y
      | node i x ks => rw [Deriv.size] at h; omega
    | succ n ih =>
      intro d h
      cases d with
      | const k => exact hc k
      | bi x y => exact hb x y
      | node i x ks =>
        rw [Deriv.size] at h
        exact hn i x ks fun d hd => ih d (by have := size_mem hd; omega)
  exact fun d => this _ d le_rfl

theorem max_kid {ks : List (Deriv K)} (h : ks ≠ []) : ∃ d ∈ ks, ∀ d' ∈ ks, dimension d' ≤ dimension d := by
  induction ks with
  | nil => exact absurd rfl h
  | cons a ks ih =>
    rcases ks with _ | ⟨b, ks⟩
    · exact ⟨a, by simp, by simp⟩
    · obtain ⟨d, hd, hm⟩ := ih (by simp)
      rcases le_total (dimension a) (dimension d) with h1 | h1
      · exact ⟨d, List.mem_cons_of_mem _ hd, fun d' hd' => by
          rcases List.mem_cons.1 hd' with rfl | h2
          · exact h1
          · exact hm _ h2⟩
      · exact ⟨a, by simp, fun d' hd' => by
          rcases List.mem_cons.1 hd' with rfl | h2
          · exact le_rfl
          · exact (hm _ h2).trans h1⟩

/-- The dimension that the code computes bounds the dimension from above: it counts constants as branches, too. -/
theorem C75_dimension (d : Deriv K) : ∀ {n : Nat}, dimension d < n → Dim n d := by
  induction d using deriv_rec with
  | hc k => exact fun _ => .leaf _ _ rfl
  | hb x y => exact fun _ => .leaf _ _ rfl
  | hn i x ks ih =>
    intro n hn
    rcases eq_or_ne ks [] with rfl | hne
    · cases n with
      | zero => omega
      | succ n => exact .fact _ _ _
    · obtain ⟨d, hd, hm⟩ := max_kid hne
      rw [Deriv.C32_dimension hm ⟨d, hd, rfl⟩] at hn
      cases n with
      | zero => omega
      | succ n =>
      obtain ⟨L, R, rfl⟩ := List.append_of_mem hd
      have hrest : ∀ d' ∈ L ++ R, dimension d' < n := by
        intro d' hd'
        have h1 : dimension d' ≤ dimension d := hm d' (by simp at hd' ⊢; tauto)
        split at hn
        · omega
        · rename_i hc
          have : dimension d' ≠ dimension d := by
            intro e
            apply hc
            have : 1 ≤ (L ++ R).countP fun d'' => decide (dimension d'' = dimension d) :=
              List.countP_pos_iff.2 ⟨d', hd', by simpa using e⟩
            simp only [List.countP_append, List.countP_cons, decide_true, if_true] at this ⊢
            omega
          omega
      refine .node _ _ _ _ _ _ (fun d' h => ih d' (by simp [h]) (hrest d' (by simp [h]))) (ih d (by simp) ?_) fun d' h => ih d' (by simp [h]) (hrest d' (by simp [h]))
      split at hn <;> omega

/-- The two agree on derivations whose constants are the whole body of a rule. -/
theorem C75_dimension_pure {d : Deriv K} (hp : Pure d) (hb : d.base = false) {n : Nat} (h : Dim n d) : dimension d < n := by
  induction hp generalizing n with
  | const k => simp [Deriv.base] at hb
  | fact i x k =>
    have : dimension (.node i x [.const k] : Deriv K) = 0 := by
      rw [Deriv.C32_dimension (m := 0) (by simp [dimension]) ⟨.const k, by simp, by simp [dimension]⟩]; simp [dimension]
    obtain ⟨m, rfl, _⟩ := h.inv
    omega
  | node i x ks hks _ ih =>
    obtain ⟨n, rfl, rfl | ⟨L, k, R, rfl, h1, h2, h3⟩⟩ := h.inv
    · have : dimension (.node i x [] : Deriv K) = 0 := by simp [dimension, Deriv.dims, Deriv.combine]
      omega
    · obtain ⟨d, hd, hm⟩ := max_kid (ks := L ++ k :: R) (by simp)
      · rw [Deriv.C32_dimension hm ⟨d, hd, rfl⟩]
        have hL : ∀ d' ∈ L, dimension d' < n := fun d' h => ih d' (by simp [h]) (hks d' (by simp [h])) (h1 d' h)
        have hR : ∀ d' ∈ R, dimension d' < n := fun d' h => ih d' (by simp [h]) (hks d' (by simp [h])) (h3 d' h)
        have hk : dimension k < n + 1 := ih k (by simp) (hks k (by simp)) h2
        have hdn : dimension d < n + 1 := by
          simp only [List.mem_append, List.mem_cons] at hd
          rcases hd with h | rfl | h
          · have := hL d h; omega
          · exact hk
          · have := hR d h; omega
        split
        · rename_i hc
          by_contra hge
          have hdn' : dimension d = n := by omega
          simp only [List.countP_append, List.countP_cons] at hc
          rw [List.countP_eq_zero.2 fun d' h => by have := hL d' h; simp; omega, List.countP_eq_zero.2 fun d' h => by have := hR d' h; simp; omega] at hc
          split at hc <;> omega
        · exact hdn

/-! ### Every derivation of small dimension is counted -/

theorem leavesL_append : ∀ ks ls : List (Deriv K), leavesL (ks ++ ls) = leavesL ks ++ leavesL ls
  | [], ls => by simp [leavesL]
  | k :: ks, ls => by simp [leavesL, leavesL_append ks ls]

section Ordered
variable [PartialOrder K] [IsOrderedRing K]

theorem dInst_split (h0 : ∀ k : K, 0 ≤ k) (u D : Tm → K) (θ : Nat → Tm) (z : BLit K) (c : List (BLit K)) : ∀ b : List (BLit K),
    instVal u b θ * dLit D θ z * instVal u c θ ≤ dInst u D θ (b ++ z :: c)
  | [] => by
    simp only [List.nil_append, dInst, instVal, List.map_nil, List.prod_nil, one_mul]
    exact le_add_of_nonneg_right (h0 _)
  | y :: b => by
    have ih := dInst_split h0 u D θ z c b
    have e : instVal u (y :: b) θ = litVal u θ y * instVal u b θ := by simp [instVal]
    rw [e, List.cons_append, dInst, mul_assoc, mul_assoc, ← mul_assoc (instVal u b θ)]
    exact le_add_of_nonneg_of_le (h0 _) (mul_le_mul_of_nonneg_left ih (h0 _))

theorem instVal_append (u : Tm → K) (b c : List (BLit K)) (θ : Nat → Tm) : instVal u (b ++ c) θ = instVal u b θ * instVal u c θ := by
  simp [instVal]

theorem forall₂_split_right {α β : Type} {R : α → β → Prop} {as : List α} {us vs : List β} (h : List.Forall₂ R as (us ++ vs)) :
    ∃ b c, as = b ++ c ∧ List.Forall₂ R b us ∧ List.Forall₂ R c vs :=
  ⟨_, _, (List.take_append_drop us.length as).symm, List.forall₂_take_append _ _ _ h, List.forall₂_drop_append _ _ _ h⟩

/-- leaves below the values of the items -/
theorem kids_le (h0 : ∀ k : K, 0 ≤ k) {u : Tm → K} {θ : Nat → Tm} : ∀ {b : List (BLit K)} {ks : List (Deriv K)}, List.Forall₂ (Fits θ) b ks →
    (∀ d ∈ ks, d.base = false → (leaves d).prod ≤ u (item d)) → (leavesL ks).prod ≤ instVal u b θ := by
  intro b ks h
  induction h with
  | nil => intro _; simp [leavesL, instVal]
  | @cons z d b ks h1 _ ih =>
    intro hk
    have e : instVal u (z :: b) θ = litVal u θ z * instVal u b θ := by simp [instVal]
    rw [e, leavesL, List.prod_append]
    refine mul_le_mul ?_ (ih fun d hd => hk d (by simp [hd])) (h0 _) (h0 _)
    cases z with
    | val k => simp only [Fits] at h1; subst h1; simp [leaves, litVal]
    | sub t =>
      simp only [Fits] at h1
      simp only [litVal]; rw [← h1.2]; exact hk d (by simp) h1.1
    | eq x y => simp only [Fits] at h1; rw [h1.2]; simp [leaves, litVal, h1.1]
    | cmp o x y => simp only [Fits] at h1; rw [h1.2]; simp [leaves, litVal, h1.1]

/-- an instance is counted in the right-hand side and in its derivative -/
theorem inst_le (h0 : ∀ k : K, 0 ≤ k) {rules : List (SRule K)} (hr : ∀ r ∈ rules, Safe r) {r : SRule K} (hrm : r ∈ rules) {old d : Dict Tm K}
    {θ : Nat → Tm} (hθ : θ ∈ GSub r) {x : Tm} (hx : x = r.head.sub θ) :
    instVal (value old) r.body θ + dInst (value old) (value d) θ r.body ≤ rhs rules (value old) x + deriv rules (value old) (value d) x := by
  classical
  have hd0 : ∀ (b : List (BLit K)) θ, 0 ≤ dInst (value old) (value d) θ b := fun b θ => h0 _
  refine add_le_add ?_ ?_
  · unfold rhs
    refine le_trans ?_ (List.single_le_sum (fun k _ => h0 k) _ (List.mem_map.2 ⟨r, hrm, rfl⟩))
    unfold contrib
    refine le_trans (le_of_eq ?_) (single_le_finsum θ (Solver.C23_finite (hr r hrm) old x) fun θ => h0 _)
    simp [instAt, hθ, hx]
  · unfold deriv
    refine le_trans ?_ (List.single_le_sum (fun k _ => h0 k) _ (List.mem_map.2 ⟨r, hrm, rfl⟩))
    have hfin : (Function.support fun θ => if θ ∈ GSub r ∧ r.head.sub θ = x then dInst (value old) (value d) θ r.body else 0).Finite := by
      obtain ⟨f2, _⟩ := sum_finsum (hr r hrm) x (F := zsOf old old d) (l := splits r.body) fun p hp => zsOf_mem hp
      refine f2.subset ?_
      intro θ hθ
      simp only [Function.mem_support] at hθ ⊢
      intro h
      apply hθ
      split
      · rename_i hh
        rw [dInst_splits, ← h]
        congr 1
        refine List.map_congr_left fun p _ => ?_
        unfold zAt
        rw [if_pos hh, zsOf_prod]
      · rfl
    refine le_trans (le_of_eq ?_) (single_le_finsum θ hfin fun θ => h0 _)
    simp [hθ, hx]

theorem reaches_step (h0 : ∀ k : K, 0 ≤ k) {rules : List (SRule K)} (hr : ∀ r ∈ rules, Safe r) {old d : Dict Tm K} {w : Tm → K}
    (h1 : ∀ x, w x = value old x + value d x) (h2 : ∀ x, rhs rules (value old) x + deriv rules (value old) (value d) x ≤ w x) {t : Nat}
    (ih : ∀ x e, IsDeriv rules x e → Dim t e → (leaves e).prod ≤ value old x) :
    ∀ e x, IsDeriv rules x e → Dim (t + 1) e → (leaves e).prod ≤ w x := by
  intro e
  induction e using deriv_rec with
  | hc k => rintro x ⟨h, _⟩; simp [Deriv.base] at h
  | hb a b => rintro x ⟨h, _⟩; simp [Deriv.base] at h
  | hn i y ks ihk =>
    rintro x ⟨_, hx, hv⟩ hdim
    simp only [item] at hx
    subst hx
    rw [Valid] at hv
    obtain ⟨⟨r, θ, hi, hθ, hx, hF⟩, hvk⟩ := hv
    rw [Deriv.validL_iff] at hvk
    have hrm : r ∈ rules := List.mem_of_getElem? hi
    refine le_trans ?_ ((inst_le h0 hr hrm (old := old) (d := d) hθ hx).trans (h2 _))
    rw [leaves]
    have hlow : ∀ {b : List (BLit K)} {ls : List (Deriv K)}, List.Forall₂ (Fits θ) b ls → (∀ d ∈ ls, d ∈ ks) → (∀ d ∈ ls, Dim t d) →
        (leavesL ls).prod ≤ instVal (value old) b θ := fun h hm hd =>
      kids_le h0 h fun d' hd' hb => ih _ _ ⟨hb, rfl, hvk d' (hm d' hd')⟩ (hd d' hd')
    obtain ⟨m, hm, rfl | ⟨L, k, R, rfl, q1, q2, q3⟩⟩ := hdim.inv
    · exact le_add_of_le_of_nonneg (hlow hF (by simp) (by simp)) (h0 _)
    · obtain rfl : m = t := by omega
      obtain ⟨b, c, hbody, hF1, hF2⟩ := forall₂_split_right hF
      obtain ⟨z, c, hz, hF3, rfl⟩ := List.forall₂_cons_right_iff.1 hF2
      have hL := hlow hF1 (fun d hd => by simp [hd]) q1
      have hR := hlow hF3 (fun d hd => by simp [hd]) q3
      have hk : (leaves k).prod ≤ litVal (value old) θ z + dLit (value d) θ z := by
        cases z with
        | val a => simp only [Fits] at hz; subst hz; simp [leaves, litVal, dLit]
        | sub u =>
          simp only [Fits] at hz
          simp only [litVal, dLit, ← h1, ← hz.2]
          exact ihk k (by simp) _ ⟨hz.1, rfl, hvk k (by simp)⟩ q2
        | eq a a' => simp only [Fits] at hz; rw [hz.2]; simp [leaves, litVal, dLit, hz.1]
        | cmp o a a' => simp only [Fits] at hz; rw [hz.2]; simp [leaves, litVal, dLit, hz.1]
      rw [leavesL_append, leavesL, List.prod_append, List.prod_append, hbody, ← mul_assoc]
      calc (leavesL L).prod * (leaves k).prod * (leavesL R).prod
          ≤ instVal (value old) b θ * (litVal (value old) θ z + dLit (value d) θ z) * instVal (value old) c θ :=
            mul_le_mul (mul_le_mul hL hk (h0 _) (h0 _)) hR (h0 _) (h0 _)
        _ = instVal (value old) (b ++ z :: c) θ + instVal (value old) b θ * dLit (value d) θ z * instVal (value old) c θ := by
            have e : instVal (value old) (z :: c) θ = litVal (value old) θ z * instVal (value old) c θ := by simp [instVal]
            rw [instVal_append, e]; ring
        _ ≤ _ := add_le_add le_rfl (dInst_split h0 _ _ θ z c b)

/-- every derivation is below a chart that is closed under the rules -/
theorem closed_le (h0 : ∀ k : K, 0 ≤ k) {rules : List (SRule K)} (hr : ∀ r ∈ rules, Safe r) {c : Dict Tm K}
    (h : ∀ x, rhs rules (value c) x ≤ value c x) : ∀ e x, IsDeriv rules x e → (leaves e).prod ≤ value c x := by
  intro e
  induction e using deriv_rec with
  | hc k => rintro x ⟨h, _⟩; simp [Deriv.base] at h
  | hb a b => rintro x ⟨h, _⟩; simp [Deriv.base] at h
  | hn i y ks ihk =>
    rintro x ⟨_, hx, hv⟩
    simp only [item] at hx
    subst hx
    rw [Valid] at hv
    obtain ⟨⟨r, θ, hi, hθ, hx, hF⟩, hvk⟩ := hv
    rw [Deriv.validL_iff] at hvk
    have hrm : r ∈ rules := List.mem_of_getElem? hi
    refine le_trans ?_ (h y)
    unfold rhs
    refine le_trans ?_ (List.single_le_sum (fun k _ => h0 k) _ (List.mem_map.2 ⟨r, hrm, rfl⟩))
    unfold contrib
    refine le_trans ?_ (single_le_finsum θ (Solver.C23_finite (hr r hrm) c y) fun θ => h0 _)
    rw [leaves]
    refine (kids_le h0 hF fun d hd hb => ihk d hd _ ⟨hb, rfl, hvk d hd⟩).trans (le_of_eq ?_)
    simp [instAt, hθ, hx]

/-- After `T` iterations, every derivation of dimension less than `T` is below the value of its item; without a limit, all
are. -/
theorem C75_reaches (h0 : ∀ k : K, 0 ≤ k) {g : Cfg K} (hd : ∀ c, g.dead c = true → c = 0)
    (hsame : ∀ a b, g.same a b = true → ∀ x, value a x = value b x) {one? : K → Bool} (h1 : ∀ c, one? c = true → c = 1)
    (hr : ∀ r ∈ g.rules, Safe r ∧ Plain r) {star : K → K} {f n m : Nat} (hs : StarAll g one? star f n m) {T : Option Nat} {c : Dict Tm K}
    (e : newton g one? star f n m T = some (c, .done)) {x : Tm} {d : Deriv K} (hx : IsDeriv g.rules x d) (hT : ∀ t, T = some (t + 1) → Dim (t + 1) d) :
    (leaves d).prod ≤ value c x := by
  have hrs : ∀ r ∈ g.rules, Safe r := fun r hrm => (hr r hrm).1
  have step : ∀ {t st ch}, NReach g one? star f n t st → t < m → solveChange star f n st = some (ch, .done) →
      (∀ x e, IsDeriv g.rules x e → Dim t e → (leaves e).prod ≤ value st.chart x) →
      ∀ x e, IsDeriv g.rules x e → Dim (t + 1) e → (leaves e).prod ≤ value (nextChart g st ch) x := by
    intro t st ch h2 hm h3 ih x e
    obtain ⟨E, hi⟩ := inv_reach hd h1 hr hs h2 hm.le
    have hc := change_ok hi.okp h3
    have hv := (next_value hd hi.ok hc).2
    refine reaches_step h0 hrs hv (fun x => ?_) ih e x
    rw [hv, hi.eqn, ← lin_deriv hrs, add_assoc, ← change_eq hi (hs _ _ h2 hm) h3]
  have key : ∀ {t st}, NReach g one? star f n t st → t ≤ m → ∀ x e, IsDeriv g.rules x e → Dim t e → (leaves e).prod ≤ value st.chart x := by
    intro t st h
    induction h with
    | start =>
      rintro _ x e ⟨h2, _, _⟩ h3
      cases e with
      | node i y ks => obtain ⟨m, hm, _⟩ := h3.inv; omega
      | _ => simp [Deriv.base] at h2
    | step hst e e2 ih => intro ht; exact step hst (by omega) e (ih (by omega))
  obtain ⟨t, st, ch, h2, hm, h3, rfl, h4, h5⟩ := newtonF_end m 0 _ .start e
  rcases h4 with h4 | h4
  · -- a fixpoint
    have hc := hsame _ _ h4
    obtain ⟨E, D, q1, q2, q3⟩ := step_of hd h1 hr hs h2 (by omega) h3
    have hup : ∀ x, rhs g.rules (value (nextChart g st ch)) x ≤ value (nextChart g st ch) x := fun x => by
      have : value (nextChart g st ch) = value st.chart := (funext hc).symm
      conv_lhs => rw [this]
      rw [q1, q3, q2]; gcongr; exact le_add_of_nonneg_right (h0 _)
    exact closed_le h0 hrs hup d x hx
  · exact step h2 (by omega) h3 (key h2 (by omega)) x d hx (hT _ h4)

/-! ### Nothing else is counted -/

/-- the values of the derivations of `x` with dimension less than `t` -/
def Vals (rules : List (SRule K)) (t : Nat) (x : Tm) : Set K := {v | ∃ d, IsDeriv rules x d ∧ Dim t d ∧ v = (leaves d).prod}

section Exact
variable (h0 : ∀ k : K, 0 ≤ k) (hdiv : ∀ a b : K, ∃ m, ∀ z, a * z ≤ b ↔ z ≤ m) {rules : List (SRule K)}
include h0 hdiv

omit h0 in
theorem mul_lub {S : Set K} {u : K} (h : IsLUB S u) {a b v : K} (hv : v ≤ u) (hb : ∀ s ∈ S, a * s ≤ b) : a * v ≤ b := by
  obtain ⟨m, hm⟩ := hdiv a b
  exact (hm v).2 (hv.trans (h.2 fun s hs => (hm s).1 (hb s hs)))

/-- a bound on all choices of derivations for a body is a bound on its value -/
theorem body_le {t : Nat} {M : Tm → K} (hM : ∀ x, IsLUB (Vals rules t x) (M x)) {u : Tm → K} (hu : ∀ x, u x ≤ M x) {θ : Nat → Tm} {B : K} :
    ∀ (b : List (BLit K)) (a : K), (∀ ks, List.Forall₂ (Fits θ) b ks → (∀ d ∈ ks, Valid rules d) → (∀ d ∈ ks, Dim t d) → a * (leavesL ks).prod ≤ B) →
      a * instVal u b θ ≤ B
  | [], a, h => by simpa [instVal, leavesL] using h [] .nil (by simp) (by simp)
  | z :: b, a, h => by
    have e : instVal u (z :: b) θ = litVal u θ z * instVal u b θ := by simp [instVal]
    have one : ∀ d, Fits θ z d → Valid rules d → Dim t d → a * (leaves d).prod * instVal u b θ ≤ B := fun d h1 h2 h3 =>
      body_le hM hu b _ fun ks q1 q2 q3 => by
        have := h (d :: ks) (.cons h1 q1) (by simpa using ⟨h2, q2⟩) (by simpa using ⟨h3, q3⟩)
        rwa [leavesL, List.prod_append, ← mul_assoc] at this
    rw [e]
    cases z with
    | val k =>
      have := one (.const k) rfl (by simp [Valid]) (.leaf _ _ rfl)
      simpa [leaves, litVal, mul_assoc] using this
    | sub s =>
      have := mul_lub hdiv (hM (s.sub θ)) (a := a * instVal u b θ) (b := B) (hu _) (by
        rintro _ ⟨d, hd, hdim, rfl⟩
        have := one d ⟨hd.1, hd.2.1⟩ hd.2.2 hdim
        rwa [mul_right_comm] at this)
      simp only [litVal]
      rwa [mul_right_comm, mul_assoc] at this
    | eq x y =>
      simp only [litVal]
      split
      · rename_i hxy
        have := one (.bi (x.sub θ) (y.sub θ)) ⟨hxy, rfl⟩ (by simp [Valid]) (.leaf _ _ rfl)
        simpa [leaves] using this
      · simpa using h0 B
    | cmp o x y =>
      simp only [litVal]
      split
      · rename_i hxy
        have := one (.bi (x.sub θ) (y.sub θ)) ⟨hxy, rfl⟩ (by simp [Valid]) (.leaf _ _ rfl)
        simpa [leaves] using this
      · simpa using h0 B

variable (hidem : ∀ a : K, a + a = a)
include hidem

omit h0 hdiv in
theorem add_le_idem {a b c : K} (h1 : a ≤ c) (h2 : b ≤ c) : a + b ≤ c := (add_le_add h1 h2).trans (hidem c).le

omit hdiv in
theorem sum_le_idem {l : List K} {c : K} (h : ∀ a ∈ l, a ≤ c) : l.sum ≤ c := by
  induction l with
  | nil => exact h0 c
  | cons a l ih => rw [List.sum_cons]; exact add_le_idem hidem (h a (by simp)) (ih fun a ha => h a (by simp [ha]))

omit hdiv in
theorem finsum_le_idem {α : Type} {f : α → K} {c : K} (h : ∀ a, f a ≤ c) : ∑ᶠ a, f a ≤ c :=
  finsum_induction (p := fun k => k ≤ c) (h0 c) (fun _ _ h1 h2 => add_le_idem hidem h1 h2) h

omit h0 hdiv in
theorem dInst_le {u D : Tm → K} {θ : Nat → Tm} {B : K} (hB0 : 0 ≤ B) : ∀ (body : List (BLit K)) (a : K),
    (∀ L z R, body = L ++ z :: R → a * (instVal u L θ * dLit D θ z * instVal u R θ) ≤ B) → a * dInst u D θ body ≤ B
  | [], a, _ => by simpa [dInst] using hB0
  | z :: b, a, h => by
    rw [dInst, mul_add]
    refine add_le_idem hidem ?_ ?_
    · have := h [] z b rfl
      simpa [instVal] using this
    · rw [← mul_assoc]
      refine dInst_le hB0 b _ fun L y R e => ?_
      have := h (z :: L) y R (by rw [e]; rfl)
      have e' : instVal u (z :: L) θ = litVal u θ z * instVal u L θ := by simp [instVal]
      rw [e'] at this
      convert this using 1
      ring

/-- one step: the linearized right-hand sides stay below the derivations of the next dimension -/
theorem lin_le {t : Nat} {M M' : Tm → K} (hM : ∀ x, IsLUB (Vals rules t x) (M x)) (hM' : ∀ x, IsLUB (Vals rules (t + 1) x) (M' x))
    {u D : Tm → K} (hu : ∀ x, u x ≤ M x) (hD : ∀ x, D x ≤ M' x) (x : Tm) : rhs rules u x ≤ M' x ∧ deriv rules u D x ≤ M' x := by
  have top : ∀ {r : SRule K} {θ : Nat → Tm}, r ∈ rules → θ ∈ GSub r → r.head.sub θ = x → ∀ {ks}, List.Forall₂ (Fits θ) r.body ks →
      (∀ d ∈ ks, Valid rules d) → (∀ i, Dim (t + 1) (.node i x ks)) → (leavesL ks).prod ≤ M' x := by
    intro r θ hr hθ hx ks hF hv hdim
    obtain ⟨i, hi⟩ := List.mem_iff_getElem?.1 hr
    refine (hM' x).1 ⟨.node i x ks, ⟨rfl, rfl, ?_⟩, hdim i, by rw [leaves]⟩
    rw [Valid]
    exact ⟨⟨r, θ, hi, hθ, hx.symm, hF⟩, Deriv.validL_iff.2 hv⟩
  constructor
  · refine sum_le_idem h0 hidem fun a ha => ?_
    obtain ⟨r, hr, rfl⟩ := List.mem_map.1 ha
    refine finsum_le_idem h0 hidem fun θ => ?_
    unfold instAt
    split
    · rename_i hθ
      have := body_le h0 hdiv hM hu (θ := θ) (B := M' x) r.body 1 fun ks q1 q2 q3 => by
        rw [one_mul]
        refine top hr hθ.1 hθ.2 q1 q2 fun i => ?_
        cases ks with
        | nil => exact .fact _ _ _
        | cons k ks => exact .node _ _ _ [] k ks (by simp) (q3 k (by simp)).mono fun d hd => q3 d (by simp [hd])
      simpa using this
    · exact h0 _
  · refine sum_le_idem h0 hidem fun a ha => ?_
    obtain ⟨r, hr, rfl⟩ := List.mem_map.1 ha
    refine finsum_le_idem h0 hidem fun θ => ?_
    split
    · rename_i hθ
      rw [← one_mul (dInst u D θ r.body)]
      refine dInst_le hidem (h0 _) r.body 1 fun L z R e => ?_
      rw [one_mul]
      cases z with
      | sub s =>
        simp only [dLit]
        have := body_le h0 hdiv hM hu (θ := θ) (B := M' x) L (D (s.sub θ) * instVal u R θ) fun ks q1 q2 q3 => by
          have := body_le h0 hdiv hM hu (θ := θ) (B := M' x) R ((leavesL ks).prod * D (s.sub θ)) fun ls p1 p2 p3 => by
            have := mul_lub hdiv (hM' (s.sub θ)) (a := (leavesL ks).prod * (leavesL ls).prod) (b := M' x) (hD _) (by
              rintro _ ⟨d, hd, hdim, rfl⟩
              have := top hr hθ.1 hθ.2 (ks := ks ++ d :: ls) (by
                rw [e]
                exact List.rel_append q1 (.cons ⟨hd.1, hd.2.1⟩ p1)) (by
                intro d' hd'
                simp only [List.mem_append, List.mem_cons] at hd'
                rcases hd' with h | rfl | h
                · exact q2 d' h
                · exact hd.2.2
                · exact p2 d' h) fun i => .node _ _ _ _ _ _ q3 hdim p3
              rw [leavesL_append, leavesL, List.prod_append, List.prod_append] at this
              convert this using 1
              ring)
            convert this using 1
            ring
          convert this using 1
          ring
        convert this using 1
        ring
      | _ => simpa [dLit] using h0 _
    · exact h0 _

end Exact

/-- In an ordered semiring with idempotent addition and suprema that products preserve (`hdiv`), the value of an item after
`T` iterations is the supremum of the values of its derivations of dimension less than `T`; without a limit, of all. -/
theorem C75_exact (h0 : ∀ k : K, 0 ≤ k) (hidem : ∀ a : K, a + a = a) (hdiv : ∀ a b : K, ∃ m, ∀ z, a * z ≤ b ↔ z ≤ m)
    (hsup : ∀ S : Set K, ∃ s, IsLUB S s) {g : Cfg K} (hd : ∀ c, g.dead c = true → c = 0)
    (hsame : ∀ a b, g.same a b = true → ∀ x, value a x = value b x) {one? : K → Bool} (h1 : ∀ c, one? c = true → c = 1)
    (hr : ∀ r ∈ g.rules, Safe r ∧ Plain r) {star : K → K} (hstar : ∀ a, star a = 1 + star a * a)
    (hind : ∀ a b x : K, b + a * x ≤ x → star a * b ≤ x) {f n m : Nat} {T : Option Nat} {c : Dict Tm K}
    (e : newton g one? star f n m T = some (c, .done)) (x : Tm) :
    IsLUB {v | ∃ d, IsDeriv g.rules x d ∧ (∀ t, T = some (t + 1) → Dim (t + 1) d) ∧ v = (leaves d).prod} (value c x) := by
  have hrs : ∀ r ∈ g.rules, Safe r := fun r hrm => (hr r hrm).1
  have hst : ∀ f n rules, LinSolve.StarOn star f n rules := LinSolve.starOn_total fun a => by rw [mul_comm]; exact hstar a
  have hs : StarAll g one? star f n m := fun _ _ _ _ => hst _ _ _
  choose M hM using fun t x => hsup (Vals g.rules t x)
  have step : ∀ {t st ch}, (∃ E, Inv g.rules st E) → solveChange star f n st = some (ch, .done) →
      (∀ x, value st.chart x ≤ M t x) → ∀ x, value (nextChart g st ch) x ≤ M (t + 1) x := by
    rintro t st change ⟨E, hi⟩ es hle x
    have hmono : ∀ x, M t x ≤ M (t + 1) x := fun x => (hM t x).2 fun _ ⟨d, h2, h3, h4⟩ => (hM (t + 1) x).1 ⟨d, h2, h3.mono, h4⟩
    have hok := change_ok hi.okp es
    let d : Dict Tm K := change.map fun p => (p.1, M (t + 1) p.1)
    have hk : Dict.keys d = Dict.keys change := by simp [d, Dict.keys, Function.comp_def]
    have hwf : Dict.WF d := by unfold Dict.WF; rw [hk]; exact hok.wf
    have hdd : OkD d := ⟨hwf, fun x hx => hok.ground x (hk ▸ hx)⟩
    have hin : ∀ x ∈ Dict.keys change, value d x = M (t + 1) x := by
      intro x hx
      obtain ⟨p, hp, rfl⟩ := List.mem_map.1 hx
      have : (p.1, M (t + 1) p.1) ∈ d := List.mem_map.2 ⟨p, hp, rfl⟩
      rw [value, Dict.get_of_mem hwf this]; rfl
    have hout : ∀ x, x ∉ Dict.keys change → value d x = 0 := by
      intro x hx
      rw [value, (Dict.get_eq_none_iff _ _).2 (by rw [hk]; exact hx)]; rfl
    have hMd : ∀ x, value d x ≤ M (t + 1) x := by
      intro x
      by_cases hx : x ∈ Dict.keys change
      · rw [hin x hx]
      · rw [hout x hx]; exact h0 _
    rw [(next_value hd hi.ok hok).2]
    refine add_le_idem hidem ((hle x).trans (hmono x)) (le_trans (LinSolve.below_chart h0 hstar hind (fun r hrm => (hi.okp r hrm).1)
      (fun r hrm => (hi.okp r hrm).2) es hout (fun x hx => ?_) x) (hMd x))
    obtain ⟨p1, p2⟩ := lin_le h0 hdiv hidem (hM t) (hM (t + 1)) hle hMd x
    rw [hin x hx, hi.lin d hdd, lin_deriv hrs]
    refine add_le_idem hidem (le_trans ?_ p1) p2
    rw [hi.eqn]
    exact le_add_of_nonneg_left (h0 _)
  have key : ∀ {t st}, NReach g one? star f n t st → (∃ E, Inv g.rules st E) ∧ ∀ x, value st.chart x ≤ M t x := by
    intro t st h
    induction h with
    | start => exact ⟨⟨_, inv_start hr⟩, fun x => by simpa [start, value_nil] using h0 _⟩
    | step hst' e e2 ih => exact ⟨⟨_, inv_step hd h1 hr ih.1.choose_spec (hst _ _ _) e e2⟩, step ih.1 e ih.2⟩
  refine ⟨?_, fun b hb => ?_⟩
  · rintro _ ⟨d, h2, h3, rfl⟩
    exact C75_reaches h0 hd hsame h1 hr hs e h2 h3
  · obtain ⟨t, st, ch, h2, hm, h3, rfl, h4, h5⟩ := newtonF_end m 0 _ .start e
    refine (step (key h2).1 h3 (key h2).2 x).trans ((hM (t + 1) x).2 ?_)
    rintro _ ⟨d, q1, q2, rfl⟩
    exact hb ⟨d, q1, fun k hk => q2.le (h5 _ hk (by omega)), rfl⟩

end Ordered

/-! ### Examples -/

section Examples

private def ct (s : String) : Tm := .con (.str s)
private def X : Tm := .var 0
private def pr (x y : Tm) : Tm := .app [ct "p", x, y]
private def ed (x y : Tm) : Tm := .app [ct "e", x, y]

/-- `e(a,b) += true.  e(b,a) += true.  p(X,Y) += e(X,Y).  p(X,Z) += p(X,Y) * p(Y,Z).` -/
private def tc : List (SRule TV) :=
  [⟨ed (ct "a") (ct "b"), [.val 1]⟩, ⟨ed (ct "b") (ct "a"), [.val 1]⟩, ⟨pr X (.var 1), [.sub (ed X (.var 1))]⟩,
   ⟨pr X (.var 2), [.sub (pr X (.var 1)), .sub (pr (.var 1) (.var 2))]⟩]

private def cfgT (rules : List (SRule TV)) : Cfg TV := ⟨rules, fun c => c == 0, 1, fun a b => a == b, fun a b => a == b⟩

private theorem tc_ok : ∀ r ∈ (cfgT tc).rules, Safe r ∧ Plain r := by
  intro r hr
  simp only [cfgT, tc, List.mem_cons, List.not_mem_nil, or_false] at hr
  rcases hr with rfl | rfl | rfl | rfl
  · exact ⟨⟨fun n hn => by rcases hn with hn | ⟨z, hz, hn⟩ <;> simp_all [ed, ct, Solver.litVars], by simp⟩, by simp [Plain]⟩
  · exact ⟨⟨fun n hn => by rcases hn with hn | ⟨z, hz, hn⟩ <;> simp_all [ed, ct, Solver.litVars], by simp⟩, by simp [Plain]⟩
  · refine ⟨⟨fun n hn => .sub (t := ed X (.var 1)) (by simp) ?_, ?_⟩, by simp [Plain]⟩
    · rcases hn with hn | ⟨z, hz, hn⟩ <;> simp_all [ed, pr, X, ct, Solver.litVars]
    · intro u hu
      simp only [List.mem_cons, BLit.sub.injEq, List.not_mem_nil, or_false] at hu
      subst hu; exact ⟨_, _, rfl⟩
  · refine ⟨⟨fun n hn => ?_, ?_⟩, by simp [Plain]⟩
    · have : n = 0 ∨ n = 1 ∨ n = 2 := by
        rcases hn with hn | ⟨z, hz, hn⟩
        · simp [pr, X, ct] at hn; tauto
        · simp only [List.mem_cons, List.not_mem_nil, or_false] at hz
          rcases hz with rfl | rfl <;> simp [pr, X, ct, Solver.litVars] at hn <;> tauto
      rcases this with rfl | rfl | rfl
      · exact .sub (t := pr X (.var 1)) (by simp) (by simp [pr, X])
      · exact .sub (t := pr X (.var 1)) (by simp) (by simp [pr, X])
      · exact .sub (t := pr (.var 1) (.var 2)) (by simp) (by simp [pr, X])
    · intro u hu
      simp only [List.mem_cons, BLit.sub.injEq, List.not_mem_nil, or_false] at hu
      rcases hu with rfl | rfl <;> exact ⟨_, _, rfl⟩

open LinSolve (tv_cases) in
private theorem tv_sup (S : Set TV) : ∃ s, IsLUB S s := by
  by_cases h : (1 : TV) ∈ S
  · exact ⟨1, fun a _ => by rcases tv_cases a with rfl | rfl <;> decide, fun b hb => hb h⟩
  · refine ⟨0, fun a ha => ?_, fun b _ => by rcases tv_cases b with rfl | rfl <;> decide⟩
    rcases tv_cases a with rfl | rfl
    · decide
    · exact (h ha).elim

open LinSolve (tv_cases) in
private theorem tv_div (a b : TV) : ∃ m, ∀ z, a * z ≤ b ↔ z ≤ m := by
  rcases tv_cases a with rfl | rfl <;> rcases tv_cases b with rfl | rfl
  · exact ⟨1, fun z => by rcases tv_cases z with rfl | rfl <;> decide⟩
  · exact ⟨1, fun z => by rcases tv_cases z with rfl | rfl <;> decide⟩
  · exact ⟨0, fun z => by rcases tv_cases z with rfl | rfl <;> decide⟩
  · exact ⟨1, fun z => by rcases tv_cases z with rfl | rfl <;> decide⟩

private theorem tc_one (d : Deriv TV) : d.base = false → Valid tc d → (leaves d).prod = 1 := by
  induction d using deriv_rec with
  | hc => simp [Deriv.base]
  | hb => simp [Deriv.base]
  | hn i x ks ih =>
    intro _ h
    rw [Valid] at h
    obtain ⟨⟨r, θ, hr, hθ, rfl, hF⟩, hv⟩ := h
    have hv := Deriv.validL_iff.1 hv
    rw [leaves]
    have hr := List.mem_of_getElem? hr
    simp only [tc, List.mem_cons, List.not_mem_nil, or_false] at hr
    rcases hr with rfl | rfl | rfl | rfl
    · rcases hF with _ | ⟨h1, ⟨⟩⟩
      obtain rfl := h1
      simp [leavesL, leaves]
    · rcases hF with _ | ⟨h1, ⟨⟩⟩
      obtain rfl := h1
      simp [leavesL, leaves]
    · rcases hF with _ | ⟨h1, ⟨⟩⟩
      have := ih _ (by simp) h1.1 (hv _ (by simp))
      simp [leavesL, this]
    · rcases hF with _ | ⟨h1, _ | ⟨h2, ⟨⟩⟩⟩
      have := ih _ (by simp) h1.1 (hv _ (by simp))
      have := ih _ (by simp) h2.1 (hv _ (by simp))
      simp [leavesL, *]

open LinSolve (tv_cases) in
-- a run that meets all hypotheses of `C75_exact`: one iteration does not reach `p(a,a)`, so that item has no derivation of
-- dimension less than 1; two iterations do
example : (¬ ∃ d, IsDeriv tc (pr (ct "a") (ct "a")) d ∧ Dim 1 d) ∧ ∃ d, IsDeriv tc (pr (ct "a") (ct "a")) d ∧ Dim 2 d := by
  have key : ∀ T c, newton (cfgT tc) (fun c => c == 1) (fun _ => 1) 60 60 3 T = some (c, .done) → _ := fun T c e =>
    C75_exact (fun k => by rcases tv_cases k with rfl | rfl <;> decide) (fun a => by rcases tv_cases a with rfl | rfl <;> decide)
      tv_div tv_sup (g := cfgT tc) (by simp [cfgT]) (by simp [cfgT]) (by simp) tc_ok (star := fun _ => 1) (fun _ => rfl) (by
        intro a b x h
        rcases tv_cases a with rfl | rfl <;> rcases tv_cases b with rfl | rfl <;> rcases tv_cases x with rfl | rfl <;>
          first | decide | exact absurd h (by decide)) (f := 60) (n := 60) (m := 3) (T := T) (c := c) e (pr (ct "a") (ct "a"))
  constructor
  · have h : ((newton (cfgT tc) (fun c => c == 1) (fun _ => 1) 60 60 3 (some 1)).map fun p => (p.2, value p.1 (pr (ct "a") (ct "a")))) =
        some (.done, 0) := by decide +kernel
    obtain ⟨⟨c, sg⟩, he, h2⟩ := Option.map_eq_some_iff.1 h
    simp only [Prod.mk.injEq] at h2
    obtain ⟨rfl, h2⟩ := h2
    have := key _ _ he
    rw [h2] at this
    rintro ⟨d, h3, h4⟩
    have hle := this.1 ⟨d, h3, fun t ht => by cases ht; exact h4, rfl⟩
    rw [tc_one d h3.1 h3.2.2] at hle
    exact absurd hle (by decide)
  · have h : ((newton (cfgT tc) (fun c => c == 1) (fun _ => 1) 60 60 3 (some 2)).map fun p => (p.2, value p.1 (pr (ct "a") (ct "a")))) =
        some (.done, 1) := by decide +kernel
    obtain ⟨⟨c, sg⟩, he, h2⟩ := Option.map_eq_some_iff.1 h
    simp only [Prod.mk.injEq] at h2
    obtain ⟨rfl, h2⟩ := h2
    have := key _ _ he
    rw [h2] at this
    by_contra hn
    have := this.2 (show (0 : TV) ∈ _ from fun v ⟨d, h3, h4, _⟩ => (hn ⟨d, h3, h4 1 rfl⟩).elim)
    exact absurd this (by decide)

/-- the derivation `p(a,a) ← (p(a,b) ← e(a,b)) (p(b,a) ← e(b,a))` -/
private def daa : Deriv TV := .node 3 (pr (ct "a") (ct "a"))
  [.node 2 (pr (ct "a") (ct "b")) [.node 0 (ed (ct "a") (ct "b")) [.const 1]], .node 2 (pr (ct "b") (ct "a")) [.node 1 (ed (ct "b") (ct "a")) [.const 1]]]

-- a derivation that meets the hypotheses of `C75_dimension_pure` for 2, but not for 1
example : dimension daa = 1 ∧ Dim 2 daa ∧ ¬ Dim 1 daa := by
  have h1 : ∀ i x, dimension (.node i x [.const (1 : TV)]) = 0 := fun i x => by
    rw [Deriv.C32_dimension (m := 0) (by simp [dimension]) ⟨.const 1, by simp, by simp [dimension]⟩]
    simp [dimension]
  have h2 : ∀ i j x y, dimension (.node i x [.node j y [.const (1 : TV)]]) = 0 := fun i j x y => by
    rw [Deriv.C32_dimension (m := 0) (by simp [h1]) ⟨_, by simp, h1 j y⟩]
    simp [h1]
  have h3 : dimension daa = 1 := by
    rw [daa, Deriv.C32_dimension (m := 0) (by simp [h2]) ⟨_, List.mem_cons_self, h2 _ _ _ _⟩]
    simp [h2]
  have hp : Pure daa := .node _ _ _ (by simp [Deriv.base]) (by
    have : ∀ i j x y, Pure (.node i x [.node j y [.const (1 : TV)]]) := fun i j x y =>
      .node _ _ _ (by simp [Deriv.base]) (by simpa using .fact _ _ _)
    simp [this])
  refine ⟨h3, C75_dimension _ (by rw [h3]; omega), fun h => ?_⟩
  have := C75_dimension_pure hp rfl h
  omega

private def cfg (rules : List (SRule ℚ)) : Cfg ℚ := ⟨rules, fun c => c == 0, 0, fun a b => a == b, fun a b => a == b⟩

/-- `g += 1.  f += 2 * g.` -/
private def cs : List (SRule ℚ) := [⟨.app [ct "g"], [.val 1]⟩, ⟨.app [ct "f"], [.val 2, .sub (.app [ct "g"])]⟩]

/-- The `dimension` of the code also counts constants as branches.  It is not what the iterations follow: in this program
no derivation of `f` has a `dimension` less than 1, but one iteration gives `f` its value. -/
theorem C75_constants : ∃ c, newton (cfg cs) (fun c => c == 1) (fun a => 1 / (1 - a)) 40 40 1 (some 1) = some (c, .done) ∧
    value c (.app [ct "f"]) = 2 ∧ (∃ d, IsDeriv cs (.app [ct "f"]) d) ∧ ∀ d, IsDeriv cs (.app [ct "f"]) d → Dim 1 d ∧ dimension d = 1 := by
  have h : ((newton (cfg cs) (fun c => c == 1) (fun a => 1 / (1 - a)) 40 40 1 (some 1)).map fun p => (p.2, value p.1 (.app [ct "f"]))) =
      some (.done, 2) := by decide +kernel
  obtain ⟨⟨c, sg⟩, he, h2⟩ := Option.map_eq_some_iff.1 h
  simp only [Prod.mk.injEq] at h2
  obtain ⟨rfl, h2⟩ := h2
  refine ⟨c, he, h2, ?_, ?_⟩
  · refine ⟨.node 1 (.app [ct "f"]) [.const 2, .node 0 (.app [ct "g"]) [.const 1]], rfl, rfl, ?_⟩
    have hg : ∀ r ∈ cs, (fun n => .var n) ∈ GSub r := by
      intro r hr
      refine ⟨fun n hn => ?_, fun _ _ => rfl⟩
      simp only [cs, List.mem_cons, List.not_mem_nil, or_false] at hr
      rcases hr with rfl | rfl
      · rcases hn with hn | ⟨z, hz, hn⟩
        · simp [ct] at hn
        · simp only [List.mem_singleton] at hz; subst hz; simp [Solver.litVars] at hn
      · rcases hn with hn | ⟨z, hz, hn⟩
        · simp [ct] at hn
        · simp only [List.mem_cons, List.not_mem_nil, or_false] at hz
          rcases hz with rfl | rfl <;> simp [Solver.litVars, ct] at hn
    simp only [Valid, ValidL, and_true, true_and]
    exact ⟨⟨_, fun n => .var n, rfl, hg _ (by simp [cs]), rfl, .cons rfl (.cons ⟨rfl, rfl⟩ .nil)⟩,
      ⟨_, fun n => .var n, rfl, hg _ (by simp [cs]), rfl, .cons rfl .nil⟩⟩
  · have hg : ∀ d : Deriv ℚ, d.base = false → item d = .app [ct "g"] → Valid cs d → ∃ i, d = .node i (.app [ct "g"]) [.const 1] := by
      intro d hb hx hv
      cases d with
      | node i x ks =>
        rw [Valid] at hv
        obtain ⟨⟨r, θ, hr, hθ, rfl, hF⟩, hv⟩ := hv
        have hr := List.mem_of_getElem? hr
        simp only [cs, List.mem_cons, List.not_mem_nil, or_false] at hr
        rcases hr with rfl | rfl
        · rcases hF with _ | ⟨h1, ⟨⟩⟩
          obtain rfl := h1
          exact ⟨i, rfl⟩
        · simp [item, ct, Tm.sub, subL] at hx
      | _ => simp [Deriv.base] at hb
    rintro d ⟨hb, hx, hv⟩
    cases d with
    | node i x ks =>
      rw [Valid] at hv
      obtain ⟨⟨r, θ, hr, hθ, rfl, hF⟩, hv⟩ := hv
      have hv := Deriv.validL_iff.1 hv
      have hr := List.mem_of_getElem? hr
      simp only [cs, List.mem_cons, List.not_mem_nil, or_false] at hr
      rcases hr with rfl | rfl
      · simp [item, ct, Tm.sub, subL] at hx
      · rcases hF with _ | ⟨h1, _ | ⟨h2, ⟨⟩⟩⟩
        obtain rfl := h1
        obtain ⟨j, rfl⟩ := hg _ h2.1 h2.2 (hv _ (by simp))
        refine ⟨.node _ _ _ [.const 2] _ [] (by simpa using .leaf _ _ rfl) (.node _ _ _ [] _ [] (by simp) (.leaf _ _ rfl) (by simp)) (by simp), ?_⟩
        have hd : ∀ (j : Nat) (x : Tm), dimension (.node j x [.const (1 : ℚ)]) = 0 := fun j x => by
          rw [Deriv.C32_dimension (m := 0) (by simp [dimension]) ⟨.const 1, by simp, by simp [dimension]⟩]
          simp [dimension]
        have h2 : dimension (.const (2 : ℚ)) = 0 := by simp [dimension]
        rw [Deriv.C32_dimension (m := 0) (by simp [h2, hd]) ⟨.const 2, by simp, h2⟩]
        simp [hd, h2]
    | _ => simp [Deriv.base] at hb

end Examples

end Newton
end Verif
