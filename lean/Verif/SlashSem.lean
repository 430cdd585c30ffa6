/-
What the rules made by the slash and left-corner transformations contribute to the values of items
(`Slash.lean`), in any semiring with infinite sums.
-/
import Verif.Slash
import Verif.UnfoldLift
import Verif.SemFold
import Verif.Conserv

set_option linter.unusedSectionVars false
set_option linter.unusedSimpArgs false

namespace Verif
open Tm Heap Sem
open Solver (noHeap)

namespace Slash
open Unfold (contribAt subRule subLit mapRule mapLit gsub_sub bv_sub mem_rvars_sub isum_unifiers mapRule_ren rvars_map contrib_made made renB_spec)
open Classical
variable {W K : Type} [CSemi W] [CSemi K]

/-- `x` is an instance of `t` -/
def Inst (t : Tm) (x : GTm) : Prop := ∃ θ, gsub θ t = x

/-- the items made by the transformations -/
def sitem (sl : Const) (y x : GTm) : GTm := ⟨slashT sl y.1 x.1, by
  have h1 := y.2; have h2 := x.2
  unfold Ground at *
  simp [slashT, vars, varsL, h1, h2]⟩
def oitem (ot : Const) (x : GTm) : GTm := ⟨otherT ot x.1, by
  have h2 := x.2
  unfold Ground at *
  simp [otherT, vars, varsL, h2]⟩
def nmitem (lam : Const) (x : GTm) : GTm := ⟨nmT lam x.1, by
  have h2 := x.2
  unfold Ground at *
  simp [nmT, vars, varsL, h2]⟩

theorem gsub_slashT (sl : Const) (θ : Nat → GTm) (y x : Tm) : gsub θ (slashT sl y x) = sitem sl (gsub θ y) (gsub θ x) := by
  apply Subtype.ext; simp [gsub, slashT, sitem]
theorem gsub_otherT (ot : Const) (θ : Nat → GTm) (x : Tm) : gsub θ (otherT ot x) = oitem ot (gsub θ x) := by
  apply Subtype.ext; simp [gsub, otherT, oitem]
theorem gsub_nmT (lam : Const) (θ : Nat → GTm) (x : Tm) : gsub θ (nmT lam x) = nmitem lam (gsub θ x) := by
  apply Subtype.ext; simp [gsub, nmT, nmitem]
theorem sitem_inj {sl : Const} {y x y' x' : GTm} : sitem sl y x = sitem sl y' x' ↔ y = y' ∧ x = x' := by
  simp [sitem, slashT, Subtype.ext_iff]
theorem oitem_inj {ot : Const} {x x' : GTm} : oitem ot x = oitem ot x' ↔ x = x' := by
  simp [oitem, otherT, Subtype.ext_iff]
theorem hfn_sitem (sl : Const) (y x : GTm) : hfn (sitem sl y x).1 = some sl := rfl
theorem hfn_oitem (ot : Const) (x : GTm) : hfn (oitem ot x).1 = some ot := rfl
theorem vars_slashT (sl : Const) (y x : Tm) : vars (slashT sl y x) = vars y ∪ vars x := by simp [slashT, vars, varsL]
theorem vars_otherT (ot : Const) (x : Tm) : vars (otherT ot x) = vars x := by simp [otherT, vars, varsL]
theorem vars_nmT (lam : Const) (x : Tm) : vars (nmT lam x) = vars x := by simp [nmT, vars, varsL]

/-! ### Sums over instances -/

/-- summing over the assignments to the variables of `t` is summing over the instances of `t` -/
theorem isum_inst (t : Tm) (F : GTm → K) :
    isum (fun a : Asg (vars t) => F (gsub (ext a) t)) = isum fun x : GTm => if Inst t x then F x else 0 := by
  rw [isum_subtype]
  let e : Asg (vars t) ≃ {x // Inst t x} := Equiv.ofBijective (fun a => ⟨gsub (ext a) t, ext a, rfl⟩) ⟨fun a b h => by
      have h1 : gsub (ext a) t = gsub (ext b) t := congrArg Subtype.val h
      rw [gsub_inj] at h1
      funext n
      have := h1 n.1 n.2
      simpa [ext, n.2] using this, fun ⟨x, θ, h⟩ => ⟨cut (vars t) θ, by
        apply Subtype.ext
        show gsub (ext (cut (vars t) θ)) t = x
        rw [← h]
        exact gsub_congr fun n hn => ext_cut hn⟩⟩
  exact isum_equiv e (fun x : {x // Inst t x} => F x.1)

theorem isum_match (t : Tm) (x : GTm) (c : K) :
    isum (fun a : Asg (vars t) => if gsub (ext a) t = x then c else 0) = if Inst t x then c else 0 := by
  rw [isum_inst t (fun z => if z = x then c else 0)]
  rw [← isum_single x (fun z => if Inst t z then c else 0)]
  refine isum_congr fun z => ?_
  split <;> split <;> simp_all

theorem isum_ite {ι : Type} (P : Prop) [Decidable P] (f : ι → K) : isum (fun i => if P then f i else 0) = if P then isum f else 0 := by
  split
  · rfl
  · exact isum_zero

theorem isum_mul_single (a : GTm) (c : K) (u : GTm → K) : isum (fun x => (if a = x then c else 0) * u x) = c * u a := by
  rw [← isum_single a (fun x => c * u x)]
  refine isum_congr fun x => ?_
  by_cases h : a = x
  · simp [h]
  · simp [h, Ne.symm h]

/-! ### Fresh copies -/

theorem freshRule_spec {fv : Nat → Nat} (hfv : Function.Injective fv) (k : Nat) (r : WRule W) :
    ∃ ρ, (freshRule fv k r).1 = renRule ρ r ∧ Set.InjOn ρ (rvars r) ∧ k ≤ (freshRule fv k r).2 := by
  obtain ⟨w1, a1, a2, a3, a4⟩ := ren_spec (fun i => fv (k + i)) r.head [] (by simp)
  simp only [List.nil_append] at a1 a2 a3 a4
  obtain ⟨w2, b1, b2, b3, b4⟩ := renB_spec (fun i => fv (k + i)) r.body w1 a2
  have hm : ∀ n, n ∈ rvars r → n ∈ w1 ++ w2 := fun n hn => by
    rw [b3, a3]
    simpa [rvars] using hn
  refine ⟨fun n => fv (k + idx (w1 ++ w2) n), ?_, ?_, ?_⟩
  · simp only [freshRule, renRule, a1, b4]
    rw [a4 w2 b2]
  · intro a ha b hb h
    have : idx (w1 ++ w2) a = idx (w1 ++ w2) b := by simpa using hfv h
    exact idx_inj (hm a ha) this
  · simp only [freshRule]; omega

theorem contrib_fresh {fv : Nat → Nat} (hfv : Function.Injective fv) (k : Nat) (r : WRule W) (φ : W → K) (V : GTm → K) (z : GTm) :
    contrib (mapRule φ (freshRule fv k r).1) V z = contrib (mapRule φ r) V z := by
  obtain ⟨ρ, h1, h2, _⟩ := freshRule_spec hfv k r
  rw [h1, mapRule_ren, contrib_ren]
  rw [rvars_map]; exact h2

/-! ### The rules -/

theorem bodyVars_cons (l : Lit K) (b : List (Lit K)) : bodyVars (l :: b) = litVars l ∪ bodyVars b := rfl

/-- `other(h) += body` -/
theorem contrib_other (ot : Const) (h : Tm) (b : List (Lit K)) (V : GTm → K) (y : GTm) :
    contrib ⟨otherT ot h, b⟩ V (oitem ot y) = contrib ⟨h, b⟩ V y := by
  have hV : rvars (⟨otherT ot h, b⟩ : WRule K) = rvars ⟨h, b⟩ := by simp only [rvars, vars_otherT]
  rw [contrib_eq hV]
  unfold contrib
  refine isum_congr fun a => ?_
  simp only [gsub_otherT, oitem_inj]

/-- ... `L * other(q) * R` -/
theorem contrib_at_other (ot : Const) (h : Tm) (L : List (Lit K)) (q : Tm) (R : List (Lit K)) (V : GTm → K) (y : GTm) :
    contrib ⟨h, L ++ .sub (otherT ot q) :: R⟩ V y = contribAt h L q R V (fun z => V (oitem ot z)) y := by
  have hV : rvars (⟨h, L ++ .sub (otherT ot q) :: R⟩ : WRule K) = rvars ⟨h, L ++ .sub q :: R⟩ := by
    simp only [rvars, bodyVars_append, bodyVars_cons, litVars, vars_otherT]
  rw [contrib_eq hV]
  unfold contribAt
  refine isum_congr fun a => ?_
  simp only [bv_append, bv_cons, lv, gsub_otherT, mul_assoc]

/-- no contribution to items with another functor -/
theorem contrib_hfn {h : Tm} {b : List (Lit K)} {V : GTm → K} {z : GTm} (hn : Named h) (e : hfn h ≠ hfn z.1) : contrib ⟨h, b⟩ V z = 0 :=
  contrib_zero fun θ e' => e (by rw [← e']; exact (hfn_gsub hn θ).symm)

/-- coefficients of a rule seen as a linear function of one subgoal -/
noncomputable def coef (h : Tm) (L : List (Lit K)) (q : Tm) (R : List (Lit K)) (V : GTm → K) (y x : GTm) : K :=
  isum fun a : Asg (rvars ⟨h, L ++ .sub q :: R⟩) => if gsub (ext a) h = y then (if gsub (ext a) q = x then bv V (ext a) L * bv V (ext a) R else 0) else 0

theorem contribAt_coef (h : Tm) (L : List (Lit K)) (q : Tm) (R : List (Lit K)) (V u : GTm → K) (y : GTm) :
    contribAt h L q R V u y = isum fun x => coef h L q R V y x * u x := by
  unfold coef contribAt
  have : ∀ x, (isum fun a : Asg (rvars ⟨h, L ++ .sub q :: R⟩) => if gsub (ext a) h = y then (if gsub (ext a) q = x then bv V (ext a) L * bv V (ext a) R else 0) else 0) * u x =
      isum fun a : Asg (rvars ⟨h, L ++ .sub q :: R⟩) => if gsub (ext a) h = y then (if gsub (ext a) q = x then bv V (ext a) L * bv V (ext a) R else 0) * u x else 0 := fun x => by
    rw [isum_mul]
    refine isum_congr fun a => ?_
    split <;> simp
  rw [isum_congr this, isum_comm]
  refine isum_congr fun a => ?_
  rw [isum_ite, isum_mul_single]
  split
  · ring
  · rfl

/-- the rule `ss` of the slash transformation -/
theorem contrib_ss {sl : Const} {h X : Tm} {L : List (Lit K)} {q : Tm} {R : List (Lit K)}
    (hd : Disjoint (rvars (⟨h, L ++ .sub q :: R⟩ : WRule K)) (vars X)) (V : GTm → K) (y x : GTm) :
    contrib ⟨slashT sl h X, L ++ .sub (slashT sl q X) :: R⟩ V (sitem sl y x) =
      if Inst X x then contribAt h L q R V (fun z => V (sitem sl z x)) y else 0 := by
  have hV : rvars (⟨slashT sl h X, L ++ .sub (slashT sl q X) :: R⟩ : WRule K) = rvars ⟨h, L ++ .sub q :: R⟩ ∪ vars X := by
    simp only [rvars, bodyVars_append, bodyVars_cons, litVars, vars_slashT]
    ext n; simp only [Finset.mem_union]; tauto
  rw [contrib_eq hV]
  let F : Asg (rvars (⟨h, L ++ .sub q :: R⟩ : WRule K)) → Asg (vars X) → K := fun b c =>
    if gsub (ext c) X = x then (if gsub (ext b) h = y then bv V (ext b) L * V (sitem sl (gsub (ext b) q) x) * bv V (ext b) R else 0) else 0
  have step : ∀ a : Asg (rvars ⟨h, L ++ .sub q :: R⟩ ∪ vars X),
      (if gsub (ext a) (slashT sl h X) = sitem sl y x then bv V (ext a) (L ++ .sub (slashT sl q X) :: R) else 0) =
        F (cut _ (ext a)) (cut _ (ext a)) := by
    intro a
    have e1 : ∀ t, vars t ⊆ rvars (⟨h, L ++ .sub q :: R⟩ : WRule K) → gsub (ext (cut (rvars (⟨h, L ++ .sub q :: R⟩ : WRule K)) (ext a))) t = gsub (ext a) t :=
      fun t ht => gsub_congr fun n hn => ext_cut (ht hn)
    have e2 : gsub (ext (cut (vars X) (ext a))) X = gsub (ext a) X := gsub_congr fun n hn => ext_cut hn
    have e3 : ∀ b, bodyVars b ⊆ rvars (⟨h, L ++ .sub q :: R⟩ : WRule K) → bv V (ext (cut (rvars (⟨h, L ++ .sub q :: R⟩ : WRule K)) (ext a))) b = bv V (ext a) b :=
      fun t ht => bv_congr fun n hn => ext_cut (ht hn)
    simp only [F]
    rw [e1 h (by intro n hn; simp [rvars, hn]), e2, e1 q (by intro n hn; simp [rvars, bodyVars_append, bodyVars_cons, litVars, hn]),
      e3 L (by intro n hn; simp [rvars, bodyVars_append, hn]), e3 R (by intro n hn; simp [rvars, bodyVars_append, bodyVars_cons, hn]),
      bv_append, bv_cons]
    simp only [gsub_slashT, sitem_inj, lv]
    by_cases hx : gsub (ext a) X = x
    · by_cases hy : gsub (ext a) h = y
      · simp [hx, hy, mul_assoc]
      · simp [hx, hy]
    · simp [hx]
  rw [isum_congr step, isum_union hd F]
  unfold contribAt
  rw [isum_comm]
  simp only [F]
  have : ∀ c : Asg (vars X), (isum fun b : Asg (rvars (⟨h, L ++ .sub q :: R⟩ : WRule K)) => if gsub (ext c) X = x then (if gsub (ext b) h = y then bv V (ext b) L * V (sitem sl (gsub (ext b) q) x) * bv V (ext b) R else 0) else 0) =
      if gsub (ext c) X = x then (isum fun b : Asg (rvars (⟨h, L ++ .sub q :: R⟩ : WRule K)) => if gsub (ext b) h = y then bv V (ext b) L * V (sitem sl (gsub (ext b) q) x) * bv V (ext b) R else 0) else 0 :=
    fun c => isum_ite _ _
  rw [isum_congr this, isum_match]

theorem inst_var (Y : Nat) (y : GTm) : Inst (.var Y) y := ⟨fun _ => y, rfl⟩

/-- the rule `ss` of the left-corner transformation -/
theorem contrib_lc {sl : Const} {h : Tm} {Y : Nat} {L : List (Lit K)} {q : Tm} {R : List (Lit K)}
    (hd : Y ∉ rvars (⟨h, L ++ .sub q :: R⟩ : WRule K)) (V : GTm → K) (y x : GTm) :
    contrib ⟨slashT sl (.var Y) q, L ++ R ++ [.sub (slashT sl (.var Y) h)]⟩ V (sitem sl y x) =
      isum fun w => coef h L q R V w x * V (sitem sl y w) := by
  have hV : rvars (⟨slashT sl (.var Y) q, L ++ R ++ [.sub (slashT sl (.var Y) h)]⟩ : WRule K) = rvars ⟨h, L ++ .sub q :: R⟩ ∪ vars (.var Y) := by
    simp only [rvars, bodyVars_append, bodyVars_cons, litVars, vars_slashT, bodyVars]
    ext n; simp only [Finset.mem_union]; tauto
  rw [contrib_eq hV]
  have hd' : Disjoint (rvars (⟨h, L ++ .sub q :: R⟩ : WRule K)) (vars (.var Y)) := by simpa using hd
  let F : Asg (rvars (⟨h, L ++ .sub q :: R⟩ : WRule K)) → Asg (vars (.var Y)) → K := fun b c =>
    if gsub (ext c) (.var Y) = y then (if gsub (ext b) q = x then bv V (ext b) L * bv V (ext b) R * V (sitem sl y (gsub (ext b) h)) else 0) else 0
  have step : ∀ a : Asg (rvars ⟨h, L ++ .sub q :: R⟩ ∪ vars (.var Y)),
      (if gsub (ext a) (slashT sl (.var Y) q) = sitem sl y x then bv V (ext a) (L ++ R ++ [.sub (slashT sl (.var Y) h)]) else 0) =
        F (cut _ (ext a)) (cut _ (ext a)) := by
    intro a
    have e1 : ∀ t, vars t ⊆ rvars (⟨h, L ++ .sub q :: R⟩ : WRule K) → gsub (ext (cut (rvars (⟨h, L ++ .sub q :: R⟩ : WRule K)) (ext a))) t = gsub (ext a) t :=
      fun t ht => gsub_congr fun n hn => ext_cut (ht hn)
    have e2 : gsub (ext (cut (vars (.var Y)) (ext a))) (.var Y) = gsub (ext a) (.var Y) := gsub_congr fun n hn => ext_cut hn
    have e3 : ∀ b, bodyVars b ⊆ rvars (⟨h, L ++ .sub q :: R⟩ : WRule K) → bv V (ext (cut (rvars (⟨h, L ++ .sub q :: R⟩ : WRule K)) (ext a))) b = bv V (ext a) b :=
      fun t ht => bv_congr fun n hn => ext_cut (ht hn)
    simp only [F]
    rw [e1 h (by intro n hn; simp [rvars, hn]), e2, e1 q (by intro n hn; simp [rvars, bodyVars_append, bodyVars_cons, litVars, hn]),
      e3 L (by intro n hn; simp [rvars, bodyVars_append, hn]), e3 R (by intro n hn; simp [rvars, bodyVars_append, bodyVars_cons, hn]),
      bv_append, bv_append, bv_cons, bv_nil]
    simp only [gsub_slashT, sitem_inj, lv]
    by_cases hx : gsub (ext a) (.var Y) = y
    · by_cases hy : gsub (ext a) q = x
      · simp [hx, hy]
      · simp [hx, hy]
    · simp [hx]
  rw [isum_congr step, isum_union hd' F, isum_comm]
  simp only [F]
  have : ∀ c : Asg (vars (.var Y)), (isum fun b : Asg (rvars (⟨h, L ++ .sub q :: R⟩ : WRule K)) => if gsub (ext c) (.var Y) = y then (if gsub (ext b) q = x then bv V (ext b) L * bv V (ext b) R * V (sitem sl y (gsub (ext b) h)) else 0) else 0) =
      if gsub (ext c) (.var Y) = y then (isum fun b : Asg (rvars (⟨h, L ++ .sub q :: R⟩ : WRule K)) => if gsub (ext b) q = x then bv V (ext b) L * bv V (ext b) R * V (sitem sl y (gsub (ext b) h)) else 0) else 0 :=
    fun c => isum_ite _ _
  rw [isum_congr this, isum_match, if_pos (inst_var Y y)]
  unfold coef
  have : ∀ w, (isum fun a : Asg (rvars ⟨h, L ++ .sub q :: R⟩) => if gsub (ext a) h = w then (if gsub (ext a) q = x then bv V (ext a) L * bv V (ext a) R else 0) else 0) * V (sitem sl y w) =
      isum fun a : Asg (rvars ⟨h, L ++ .sub q :: R⟩) => (if gsub (ext a) h = w then (if gsub (ext a) q = x then bv V (ext a) L * bv V (ext a) R else 0) else 0) * V (sitem sl y w) := fun w => isum_mul _ _
  rw [isum_congr this, isum_comm]
  refine isum_congr fun a => ?_
  rw [isum_mul_single]
  split <;> simp

/-- the base rules -/
theorem contrib_base (sl : Const) (X : Tm) (V : GTm → K) (y x : GTm) :
    contrib ⟨slashT sl X X, []⟩ V (sitem sl y x) = if Inst X x ∧ y = x then 1 else 0 := by
  have hV : rvars (⟨slashT sl X X, []⟩ : WRule K) = vars X := by simp [rvars, vars_slashT, bodyVars]
  rw [contrib_eq hV]
  by_cases h : y = x
  · subst h
    simp only [gsub_slashT, sitem_inj, and_self, and_true, bv_nil]
    exact isum_match X y 1
  · rw [if_neg (by tauto)]
    refine (isum_congr fun a => ?_).trans isum_zero
    rw [if_neg]
    rw [gsub_slashT, sitem_inj]
    rintro ⟨rfl, rfl⟩; exact h rfl

/-- a rule that copies: `y += o(y)` where `o(y)` has the value `O(y)` -/
theorem contrib_copy {y : Tm} {b : List (Lit K)} (hb : bodyVars b ⊆ vars y) {V O : GTm → K} (h : ∀ θ, bv V θ b = O (gsub θ y)) (z : GTm) :
    contrib ⟨y, b⟩ V z = if Inst y z then O z else 0 := by
  have hV : rvars (⟨y, b⟩ : WRule K) = vars y := by simp only [rvars]; exact Finset.union_eq_left.2 hb
  rw [contrib_eq hV]
  rw [← isum_match]
  refine isum_congr fun a => ?_
  simp only [h]
  split
  · rename_i e; rw [e]
  · rfl

/-- the rules `rso` -/
theorem contrib_rso {sl : Const} {X x' y o : Tm} {bs : List (Nat × Tm)} (hs : Spec noHeap X x' (some bs)) (ho : vars o = vars x')
    (h1 : Disjoint (vars X) (vars x')) (h2 : Disjoint (vars X ∪ vars x') (vars y)) {V O : GTm → K} (hO : ∀ θ, V (gsub θ o) = O (gsub θ x')) (z : GTm) :
    contrib (subRule (res (bindAll noHeap bs)) ⟨y, [.sub o, .sub (slashT sl y x')]⟩) V z =
      if Inst y z then isum fun x => if Inst X x ∧ Inst x' x then O x * V (sitem sl z x) else 0 else 0 := by
  set σ := res (bindAll noHeap bs) with hσ
  let t : WRule K := ⟨y, [.sub o, .sub (slashT sl y x')]⟩
  have hrt : rvars t = vars y ∪ vars x' := by
    simp only [t, rvars, bodyVars, litVars, ho, vars_slashT]
    ext n; simp only [Finset.mem_union]; tauto
  have hmade : made infty (subRule σ t) (subRule σ (⟨x', []⟩ : WRule K)) = subRule σ t := by
    unfold made
    rw [if_pos]
    intro n hn
    rw [mem_rvars_sub] at hn ⊢
    obtain ⟨m, hm, hn⟩ := hn
    refine ⟨m, ?_, hn⟩
    rw [hrt]
    simp only [rvars, bodyVars, Finset.union_empty] at hm
    simp [hm]
  have hspec := hs
  cases hs with
  | ok _ hg hτ hnd hbs hvs =>
  have hXx : X.sub σ = x'.sub σ := ((hτ σ).1 hg.respects_res).2
  have key := contrib_made (V := (vars X ∪ vars x') ∪ vars y) (x := X) (y := x') (by intro n hn; simp [hn]) (by intro n hn; simp [hn]) hspec
    (t := t) (s := ⟨x', []⟩) (by rw [hrt]; intro n hn; simp only [Finset.mem_union] at hn ⊢; tauto)
    (by simp only [rvars, bodyVars]; intro n hn; simp only [Finset.mem_union] at hn ⊢; simp at hn; tauto)
    (by
      intro n hn hb
      left
      have hres : σ n = .var n := res_unbound hb
      have hself : n ∈ vars (σ n) := by rw [hres]; simp
      rw [mem_rvars_sub, hrt]
      simp only [Finset.mem_union] at hn
      rcases hn with (hn | hn) | hn
      · have : n ∈ vars (X.sub σ) := mem_vars_sub.2 ⟨n, hn, hself⟩
        rw [hXx, mem_vars_sub] at this
        obtain ⟨m, hm, h⟩ := this
        exact ⟨m, by simp [hm], h⟩
      · exact ⟨n, by simp [hn], hself⟩
      · exact ⟨n, by simp [hn], hself⟩) V z
  rw [← hσ, hmade] at key
  rw [key]
  let F : Asg (vars X ∪ vars x') → Asg (vars y) → K := fun b c =>
    if gsub (ext c) y = z then (if gsub (ext b) X = gsub (ext b) x' then O (gsub (ext b) x') * V (sitem sl z (gsub (ext b) x')) else 0) else 0
  have step : ∀ a : Asg ((vars X ∪ vars x') ∪ vars y), (if gsub (ext a) X = gsub (ext a) x' then (if gsub (ext a) t.head = z then bv V (ext a) t.body else 0) else 0) =
      F (cut _ (ext a)) (cut _ (ext a)) := by
    intro a
    have e1 : ∀ t, vars t ⊆ vars X ∪ vars x' → gsub (ext (cut (vars X ∪ vars x') (ext a))) t = gsub (ext a) t :=
      fun t ht => gsub_congr fun n hn => ext_cut (ht hn)
    have e2 : gsub (ext (cut (vars y) (ext a))) y = gsub (ext a) y := gsub_congr fun n hn => ext_cut hn
    simp only [F]
    rw [e1 X (by intro n hn; simp [hn]), e1 x' (by intro n hn; simp [hn]), e2]
    simp only [t, bv_cons, lv, gsub_slashT, bv_nil, mul_one, hO]
    by_cases hx : gsub (ext a) X = gsub (ext a) x'
    · by_cases hy : gsub (ext a) y = z
      · simp [hx, hy]
      · simp [hx, hy]
    · simp [hx]
  rw [isum_congr step, isum_union h2 F, isum_comm]
  simp only [F]
  have : ∀ c : Asg (vars y), (isum fun b : Asg (vars X ∪ vars x') => if gsub (ext c) y = z then (if gsub (ext b) X = gsub (ext b) x' then O (gsub (ext b) x') * V (sitem sl z (gsub (ext b) x')) else 0) else 0) =
      if gsub (ext c) y = z then (isum fun b : Asg (vars X ∪ vars x') => (if gsub (ext b) X = gsub (ext b) x' then O (gsub (ext b) x') * V (sitem sl z (gsub (ext b) x')) else 0)) else 0 :=
    fun c => isum_ite _ _
  rw [isum_congr this, isum_match]
  congr 1
  let G : Asg (vars X) → Asg (vars x') → K := fun b c =>
    if gsub (ext b) X = gsub (ext c) x' then O (gsub (ext c) x') * V (sitem sl z (gsub (ext c) x')) else 0
  have step2 : ∀ a : Asg (vars X ∪ vars x'), (if gsub (ext a) X = gsub (ext a) x' then O (gsub (ext a) x') * V (sitem sl z (gsub (ext a) x')) else 0) =
      G (cut _ (ext a)) (cut _ (ext a)) := by
    intro a
    have e1 : gsub (ext (cut (vars X) (ext a))) X = gsub (ext a) X := gsub_congr fun n hn => ext_cut hn
    have e2 : gsub (ext (cut (vars x') (ext a))) x' = gsub (ext a) x' := gsub_congr fun n hn => ext_cut hn
    simp only [G, e1, e2]
  rw [isum_congr step2, isum_union h1 G, isum_comm]
  simp only [G]
  rw [isum_congr fun c => isum_match X (gsub (ext c) x') (O (gsub (ext c) x') * V (sitem sl z (gsub (ext c) x'))),
    isum_inst x' (fun x => if Inst X x then O x * V (sitem sl z x) else 0)]
  refine isum_congr fun x => ?_
  by_cases h3 : Inst X x <;> by_cases h4 : Inst x' x <;> simp [h3, h4]

theorem no_meet {X x' : Tm} (h1 : Disjoint (vars X) (vars x')) (hs : Spec noHeap X x' none) (x : GTm) : ¬ (Inst X x ∧ Inst x' x) := by
  rintro ⟨⟨θ, h⟩, ⟨τ, h'⟩⟩
  cases hs with
  | fail hf =>
    refine hf (fun n => if n ∈ vars X then (θ n).1 else (τ n).1) (by intro n t e; simp [noHeap] at e) ?_
    have e1 : X.sub (fun n => if n ∈ vars X then (θ n).1 else (τ n).1) = x.1 := by
      rw [← h]
      exact sub_congr fun n hn => by simp [hn]
    have e2 : x'.sub (fun n => if n ∈ vars X then (θ n).1 else (τ n).1) = x.1 := by
      rw [← h']
      exact sub_congr fun n hn => by
        have : n ∉ vars X := fun h => (Finset.disjoint_left.1 h1 h) hn
        simp [this]
    rw [e1, e2]

end Slash
end Verif
