/-
Property C33: unfolding keeps solutions and the least solution.
-/
import Verif.Unfold
import Verif.UnifyThm
import Verif.SolverThm

set_option linter.unusedSectionVars false
set_option linter.unusedSimpArgs false

namespace Verif
open Tm Heap Sem
open Solver (noHeap forEach good_noHeap respects_noHeap)

namespace Unfold
variable {W : Type}

/-! ### Fresh copies and bindings -/

theorem renB_spec [CSemi W] (gen : Nat → Nat) : ∀ (b : List (Lit W)) (vs : List Nat), vs.Nodup →
    ∃ ws, (WRule.renB gen b vs).2 = vs ++ ws ∧ (vs ++ ws).Nodup ∧ (∀ n, n ∈ vs ++ ws ↔ n ∈ vs ∨ n ∈ bodyVars b) ∧
      (WRule.renB gen b vs).1 = b.map (renLit fun n => gen (idx (vs ++ ws) n))
  | [], vs, h => ⟨[], by simp [WRule.renB], by simpa using h, by simp [bodyVars], by simp [WRule.renB]⟩
  | .val k :: b, vs, h => by
    obtain ⟨ws, h1, h2, h3, h4⟩ := renB_spec gen b vs h
    exact ⟨ws, by simp [WRule.renB, h1], h2, fun n => by rw [h3]; simp [bodyVars, litVars], by simp [WRule.renB, h4, renLit]⟩
  | .sub t :: b, vs, h => by
    obtain ⟨w1, a1, a2, a3, a4⟩ := ren_spec gen t vs h
    obtain ⟨w2, b1, b2, b3, b4⟩ := renB_spec gen b (vs ++ w1) a2
    refine ⟨w1 ++ w2, ?_, ?_, fun n => ?_, ?_⟩
    · simp only [WRule.renB, a1, b1, List.append_assoc]
    · rw [← List.append_assoc]; exact b2
    · rw [← List.append_assoc, b3, a3]; simp only [bodyVars, litVars, Finset.mem_union]; tauto
    · simp only [WRule.renB, a1, b4, List.map_cons, renLit]
      rw [a4 w2 b2]
      simp only [List.append_assoc]

theorem freshR_spec [CSemi W] (k : Nat) (r : WRule W) :
    ∃ ρ, (freshR k r).1 = renRule ρ r ∧ Set.InjOn ρ (rvars r) ∧ (∀ n ∈ rvars r, k ≤ ρ n ∧ ρ n < (freshR k r).2) ∧ k ≤ (freshR k r).2 := by
  obtain ⟨w1, a1, a2, a3, a4⟩ := ren_spec (k + ·) r.head [] (by simp)
  simp only [List.nil_append] at a1 a2 a3 a4
  obtain ⟨w2, b1, b2, b3, b4⟩ := renB_spec (k + ·) r.body w1 a2
  have hm : ∀ n, n ∈ rvars r → n ∈ w1 ++ w2 := fun n hn => by
    rw [b3, a3]
    simpa [rvars] using hn
  refine ⟨fun n => k + idx (w1 ++ w2) n, ?_, ?_, ?_, ?_⟩
  · simp only [freshR, renRule, a1, b4]
    rw [a4 w2 b2]
  · intro a ha b hb h
    have : idx (w1 ++ w2) a = idx (w1 ++ w2) b := by simpa using h
    exact idx_inj (hm a ha) this
  · intro n hn
    refine ⟨Nat.le_add_right _ _, ?_⟩
    have := List.idxOf_lt_length_iff.2 (hm n hn)
    simp only [freshR, a1, b1]
    simp only [idx]; omega
  · simp only [freshR]; omega

/-- a substitution instance of a rule -/
def subLit (σ : Nat → Tm) : Lit W → Lit W
  | .val k => .val k
  | .sub t => .sub (t.sub σ)
def subRule (σ : Nat → Tm) (r : WRule W) : WRule W := ⟨r.head.sub σ, r.body.map (subLit σ)⟩

theorem derefB_evt {h : Heap} (hg : Good h) (ys : List (Lit W)) :
    Evt (fun f => allSome (ys.map (derefLit h f)) = some (ys.map (subLit (res h)))) := by
  induction ys with
  | nil => exact .of_all fun f => rfl
  | cons l ys ih =>
    cases l with
    | val c => exact ih.mono fun f e => by simp only [List.map_cons, derefLit, allSome, e, Option.map_some, subLit]
    | sub t =>
      refine (ih.and (hg.evt_deref t)).mono fun f e => ?_
      simp only [List.map_cons, derefLit, e.2, Option.map_some, allSome, e.1, subLit]

theorem derefR_evt {h : Heap} (hg : Good h) (r : WRule W) : Evt (fun f => derefR h f r = some (subRule (res h) r)) := by
  refine ((derefB_evt hg r.body).and (hg.evt_deref r.head)).mono fun f e => ?_
  simp only [derefR, e.1, e.2, subRule]

theorem mem_litVars_sub {σ : Nat → Tm} {l : Lit W} {n : Nat} : n ∈ litVars (subLit σ l) ↔ ∃ m ∈ litVars l, n ∈ vars (σ m) := by
  cases l with
  | val k => simp [subLit, litVars]
  | sub t => simp only [subLit, litVars, mem_vars_sub]

variable [CSemi W]

theorem mem_rvars_sub {σ : Nat → Tm} {r : WRule W} {n : Nat} : n ∈ rvars (subRule σ r) ↔ ∃ m ∈ rvars r, n ∈ vars (σ m) := by
  simp only [rvars, subRule, Finset.mem_union, mem_vars_sub, mem_bodyVars, List.mem_map]
  constructor
  · rintro (⟨m, h1, h2⟩ | ⟨_, ⟨l, hl, rfl⟩, hn⟩)
    · exact ⟨m, .inl h1, h2⟩
    · obtain ⟨m, h1, h2⟩ := mem_litVars_sub.1 hn
      exact ⟨m, .inr ⟨l, hl, h1⟩, h2⟩
  · rintro ⟨m, h | ⟨l, hl, h⟩, h2⟩
    · exact .inl ⟨m, h, h2⟩
    · exact .inr ⟨_, ⟨l, hl, rfl⟩, mem_litVars_sub.2 ⟨m, h, h2⟩⟩

theorem gsub_sub (σ : Nat → Tm) (θ : Nat → GTm) (t : Tm) : gsub θ (t.sub σ) = gsub (fun n => gsub θ (σ n)) t := by
  apply Subtype.ext
  simp only [gsub, Tm.sub_sub]

theorem bv_sub (v : GTm → W) (σ : Nat → Tm) (θ : Nat → GTm) (b : List (Lit W)) :
    bv v θ (b.map (subLit σ)) = bv v (fun n => gsub θ (σ n)) b := by
  unfold bv
  rw [List.map_map]
  congr 1
  apply List.map_congr_left
  intro l _
  cases l with
  | val k => rfl
  | sub t => simp only [Function.comp, subLit, lv, gsub_sub]

/-! ### Summing over the solutions of an equation -/

theorem sub_ext_eq {θ : Nat → GTm} {x y : Tm} : gsub θ x = gsub θ y ↔ x.sub (fun n => (θ n).1) = y.sub (fun n => (θ n).1) := by
  simp only [gsub, Subtype.mk.injEq]

/-- the variables of `V` that are not bound -/
def unbound (h : Heap) (V : Finset Nat) : Finset Nat := V.filter fun n => h n = none

open Classical in
theorem isum_unifiers {V : Finset Nat} {x y : Tm} {bs : List (Nat × Tm)} (hx : vars x ⊆ V) (hy : vars y ⊆ V)
    (hs : Spec noHeap x y (some bs)) (F : (Nat → GTm) → W) (hF : ∀ θ φ, (∀ n ∈ V, θ n = φ n) → F θ = F φ) :
    isum (fun a : Asg V => if gsub (ext a) x = gsub (ext a) y then F (ext a) else 0) =
      isum fun a : Asg (unbound (bindAll noHeap bs) V) => F fun n => gsub (ext a) (res (bindAll noHeap bs) n) := by
  cases hs with
  | ok _ hg hr hn hd hv =>
  set h := bindAll noHeap bs with hh
  have hclosed : ∀ n ∈ V, ∀ m ∈ vars (res h n), m ∈ unbound h V := by
    intro n hnV m hm
    have hres0 : ∀ t : Tm, t.sub (res noHeap) = t := fun t => by
      rw [show res noHeap = Tm.var from funext fun n => res_unbound rfl, sub_id]
    have h1 := (hv (.var n) m (by simpa using hm)).1
    rw [hres0, hres0, hres0] at h1
    have h2 : h m = none := hg.vars_res (t := .var n) (by simpa using hm)
    simp only [unbound, Finset.mem_filter, h2, and_true]
    simp only [vars_var, Finset.mem_singleton] at h1
    rcases h1 with h1 | h1 | h1
    · exact h1 ▸ hnV
    · exact hx h1
    · exact hy h1
  rw [isum_subtype]
  have heq : x.sub (res h) = y.sub (res h) := ((hr _).1 hg.respects_res).2
  let e : {a : Asg V // gsub (ext a) x = gsub (ext a) y} ≃ Asg (unbound h V) :=
    { toFun := fun a => cut _ (ext a.1)
      invFun := fun b => ⟨cut V fun n => gsub (ext b) (res h n), by
        have h1 : gsub (ext (cut V fun n => gsub (ext b) (res h n))) x = gsub (fun n => gsub (ext b) (res h n)) x :=
          gsub_congr fun n hn => ext_cut (hx hn)
        have h2 : gsub (ext (cut V fun n => gsub (ext b) (res h n))) y = gsub (fun n => gsub (ext b) (res h n)) y :=
          gsub_congr fun n hn => ext_cut (hy hn)
        rw [h1, h2, ← gsub_sub, ← gsub_sub, heq]⟩
      left_inv := fun a => by
        apply Subtype.ext
        funext n
        simp only [cut]
        have hR : Respects h fun n => (ext a.1 n).1 := (hr _).2 ⟨respects_noHeap _, sub_ext_eq.1 a.2⟩
        have h1 : gsub (ext (cut (unbound h V) (ext a.1))) (res h n.1) = gsub (ext a.1) (res h n.1) :=
          gsub_congr fun m hm => ext_cut (hclosed n.1 n.2 m hm)
        have h2 : gsub (ext a.1) (res h n.1) = ext a.1 n.1 := by
          apply Subtype.ext
          have := hg.sub_res hR (.var n.1)
          simpa [gsub] using this
        have h3 : ext a.1 n.1 = a.1 n := by simp [ext, n.2]
        exact h1.trans (h2.trans h3)
      right_inv := fun b => by
        funext n
        have hn' : n.1 ∈ V ∧ h n.1 = none := by have := n.2; simpa [unbound] using this
        simp only [cut]
        rw [show ext (cut V fun n => gsub (ext b) (res h n)) n.1 = gsub (ext b) (res h n.1) from ext_cut hn'.1]
        apply Subtype.ext
        simp [gsub, res_unbound hn'.2, ext, n.2] }
  rw [← isum_equiv e]
  refine isum_congr fun a => hF _ _ fun n hn => ?_
  have := congrArg (fun z : {a : Asg V // gsub (ext a) x = gsub (ext a) y} => ext z.1 n) (e.left_inv a)
  exact this.symm.trans (ext_cut (θ := fun n => gsub (ext (e a)) (res h n)) hn)

open Classical in
theorem isum_no_unifier {V : Finset Nat} {x y : Tm} (hs : Spec noHeap x y none) (F : (Nat → GTm) → W) :
    isum (fun a : Asg V => if gsub (ext a) x = gsub (ext a) y then F (ext a) else 0) = 0 := by
  cases hs with
  | fail hf =>
  refine (isum_congr fun a => if_neg ?_).trans isum_zero
  intro h
  exact hf _ (respects_noHeap _) (sub_ext_eq.1 h)

open Classical in
theorem contrib_val (r : WRule W) (c : W) (v : GTm → W) (x : GTm) :
    contrib ⟨r.head, r.body ++ [.val c]⟩ v x = c * contrib r v x := by
  have hV : rvars ⟨r.head, r.body ++ [.val c]⟩ = rvars r := by
    simp only [rvars, bodyVars_append]
    simp [bodyVars, litVars]
  rw [contrib_eq hV]
  unfold contrib
  rw [mul_isum]
  refine isum_congr fun a => ?_
  simp only [bv_append]
  split
  · simp [bv, lv, mul_comm]
  · simp

/-- the rule made by the loop body -/
def made [DecidableEq W] (inf : W) (t s : WRule W) : WRule W :=
  if rvars s ⊆ rvars t then t else if inf ≠ 1 then ⟨t.head, t.body ++ [.val inf]⟩ else t

theorem contrib_made [DecidableEq W] {V : Finset Nat} {x y : Tm} {bs : List (Nat × Tm)} (hx : vars x ⊆ V) (hy : vars y ⊆ V)
    (hs : Spec noHeap x y (some bs)) {t s : WRule W} (ht : rvars t ⊆ V) (hs' : rvars s ⊆ V)
    (hV : ∀ n ∈ V, bindAll noHeap bs n = none → n ∈ rvars (subRule (res (bindAll noHeap bs)) t) ∨ n ∈ rvars (subRule (res (bindAll noHeap bs)) s))
    (v : GTm → W) (z : GTm) :
    contrib (made infty (subRule (res (bindAll noHeap bs)) t) (subRule (res (bindAll noHeap bs)) s)) v z =
      isum fun a : Asg V => if gsub (ext a) x = gsub (ext a) y then (if gsub (ext a) t.head = z then bv v (ext a) t.body else 0) else 0 := by
  have hspec := hs
  cases hs with
  | ok _ hg hr hn hd hv =>
  set h := bindAll noHeap bs with hh
  set t' := subRule (res h) t with ht'
  set s' := subRule (res h) s with hs''
  have hclosed : ∀ r : WRule W, rvars r ⊆ V → rvars (subRule (res h) r) ⊆ unbound h V := by
    intro r hrV m hm
    obtain ⟨n, hnr, hm⟩ := mem_rvars_sub.1 hm
    have hres0 : ∀ t : Tm, t.sub (res noHeap) = t := fun t => by
      rw [show res noHeap = Tm.var from funext fun n => res_unbound rfl, sub_id]
    have h1 := (hv (.var n) m (by simpa using hm)).1
    rw [hres0, hres0, hres0] at h1
    have h2 : h m = none := hg.vars_res (t := .var n) (by simpa using hm)
    simp only [unbound, Finset.mem_filter, h2, and_true]
    simp only [vars_var, Finset.mem_singleton] at h1
    rcases h1 with h1 | h1 | h1
    · exact h1 ▸ hrV hnr
    · exact hx h1
    · exact hy h1
  have hiff : rvars s' ⊆ rvars t' ↔ rvars t' = unbound h V := by
    constructor
    · intro hsub
      apply Finset.Subset.antisymm (hclosed t ht)
      intro n hn
      simp only [unbound, Finset.mem_filter] at hn
      rcases hV n hn.1 hn.2 with h1 | h1
      · exact h1
      · exact hsub h1
    · intro he
      rw [he]; exact hclosed s hs'
  have hm : contrib (made infty t' s') v z = (if rvars t' = unbound h V then 1 else infty) * contrib t' v z := by
    unfold made
    by_cases hc : rvars t' = unbound h V
    · rw [if_pos (hiff.2 hc), if_pos hc, one_mul]
    · rw [if_neg (fun h => hc (hiff.1 h)), if_neg hc]
      by_cases hi : (infty : W) ≠ 1
      · rw [if_pos hi, contrib_val]
      · rw [if_neg hi]; simp only [not_not] at hi; rw [hi, one_mul]
  rw [hm, isum_unifiers hx hy hspec (fun θ => if gsub θ t.head = z then bv v θ t.body else 0)]
  · unfold contrib
    rw [← isum_extra (hclosed t ht)]
    refine isum_congr fun a => ?_
    have e1 : gsub (ext (cut (rvars t') (ext a))) t'.head = gsub (fun n => gsub (ext a) (res h n)) t.head := by
      rw [← gsub_sub]
      exact gsub_congr fun n hn => ext_cut (by simp only [rvars, Finset.mem_union]; exact .inl hn)
    have e2 : bv v (ext (cut (rvars t') (ext a))) t'.body = bv v (fun n => gsub (ext a) (res h n)) t.body := by
      rw [← bv_sub]
      exact bv_congr fun n hn => ext_cut (by simp only [rvars, Finset.mem_union]; exact .inr hn)
    rw [e1, e2]
  · intro θ φ hθ
    rw [gsub_congr (t := t.head) fun n hn => hθ n (ht (by simp [rvars, hn])),
      bv_congr (b := t.body) fun n hn => hθ n (ht (by simp [rvars, hn]))]

/-! ### One subgoal valued separately -/

open Classical in
/-- the contribution of `head += L * q * R` when the subgoal `q` takes its value from `u` and the others from `v` -/
noncomputable def contribAt (head : Tm) (L : List (Lit W)) (q : Tm) (R : List (Lit W)) (v u : GTm → W) (x : GTm) : W :=
  isum fun a : Asg (rvars ⟨head, L ++ .sub q :: R⟩) =>
    if gsub (ext a) head = x then bv v (ext a) L * u (gsub (ext a) q) * bv v (ext a) R else 0

theorem contribAt_self (head : Tm) (L : List (Lit W)) (q : Tm) (R : List (Lit W)) (v : GTm → W) (x : GTm) :
    contribAt head L q R v v x = contrib ⟨head, L ++ .sub q :: R⟩ v x := by
  unfold contribAt contrib
  refine isum_congr fun a => ?_
  simp only [bv_append, bv_cons, lv, mul_assoc]

theorem contribAt_congr {head : Tm} {L : List (Lit W)} {q : Tm} {R : List (Lit W)} {v u w : GTm → W}
    (h : ∀ θ, u (gsub θ q) = w (gsub θ q)) (x : GTm) : contribAt head L q R v u x = contribAt head L q R v w x := by
  unfold contribAt
  refine isum_congr fun a => ?_
  rw [h]

theorem contribAt_add (head : Tm) (L : List (Lit W)) (q : Tm) (R : List (Lit W)) (v u w : GTm → W) (x : GTm) :
    contribAt head L q R v (fun y => u y + w y) x = contribAt head L q R v u x + contribAt head L q R v w x := by
  unfold contribAt
  rw [← isum_add]
  refine isum_congr fun a => ?_
  split
  · ring
  · simp

theorem contribAt_zero (head : Tm) (L : List (Lit W)) (q : Tm) (R : List (Lit W)) (v : GTm → W) (x : GTm) :
    contribAt head L q R v (fun _ => 0) x = 0 := by
  unfold contribAt
  refine (isum_congr fun a => ?_).trans isum_zero
  simp

/-- all variables are below the allocation mark -/
def Below (k : Nat) (r : WRule W) : Prop := ∀ n ∈ rvars r, n < k

variable [DecidableEq W]

theorem resolvent_evt {h : Heap} (hg : Good h) (inf : W) (head : Tm) (L R : List (Lit W)) (s : WRule W) (i : Option Nat) :
    Evt (fun f => ∀ st, resolvent f inf head L R s i h st =
      some (h, ⟨st.out ++ [((freshR st.k (made inf (subRule (res h) ⟨head, L ++ s.body ++ R⟩) (subRule (res h) s))).1, i)],
        (freshR st.k (made inf (subRule (res h) ⟨head, L ++ s.body ++ R⟩) (subRule (res h) s))).2⟩, .done)) := by
  refine ((derefR_evt hg ⟨head, L ++ s.body ++ R⟩).and (derefR_evt hg s)).mono fun f e st => ?_
  simp only [resolvent, e.1, e.2, made]

/-- what the loop body does when it is reached after unifying `x` and `y` -/
theorem unify_resolvent {V : Finset Nat} {x y : Tm} (hx : vars x ⊆ V) (hy : vars y ⊆ V) {head : Tm} {L R : List (Lit W)} {s : WRule W}
    (ht : rvars ⟨head, L ++ s.body ++ R⟩ ⊆ V) (hs' : rvars s ⊆ V)
    (hV : ∀ bs, Spec noHeap x y (some bs) → ∀ n ∈ V, bindAll noHeap bs n = none →
      n ∈ rvars (subRule (res (bindAll noHeap bs)) ⟨head, L ++ s.body ++ R⟩) ∨ n ∈ rvars (subRule (res (bindAll noHeap bs)) s))
    (i : Option Nat) (st : US W) :
    ∃ out k', Evt (fun f => unifyF f x y (resolvent f infty head L R s i) noHeap st = some (noHeap, ⟨st.out ++ out, k'⟩, .done)) ∧
      st.k ≤ k' ∧ (∀ t ∈ out, Below k' t.1 ∧ t.2 = i) ∧ out.length ≤ 1 ∧
      ∀ v z, T (out.map Prod.fst) v z = isum fun a : Asg V => if gsub (ext a) x = gsub (ext a) y then
        (if gsub (ext a) head = z then bv v (ext a) (L ++ s.body ++ R) else 0) else 0 := by
  obtain ⟨r, hs, he⟩ := unify_result good_noHeap x y
  cases r with
  | none =>
    refine ⟨[], st.k, he.mono fun f e => ?_, le_refl _, by simp, by simp, fun v z => ?_⟩
    · rw [e]; simp [run]
    · rw [isum_no_unifier hs (fun θ => if gsub θ head = z then bv v θ (L ++ s.body ++ R) else 0)]; rfl
  | some bs =>
    have hspec := hs
    cases hs with
    | ok _ hg hr hn hd hv =>
    set t' := made infty (subRule (res (bindAll noHeap bs)) ⟨head, L ++ s.body ++ R⟩) (subRule (res (bindAll noHeap bs)) s) with ht'
    obtain ⟨ρ, hρ1, hρ2, hρ3, hρ4⟩ := freshR_spec st.k t'
    have hu : unbindAll bs (bindAll noHeap bs) = noHeap := unbindAll_bindAll hn fun p _ => rfl
    refine ⟨[((freshR st.k t').1, i)], (freshR st.k t').2, ?_, hρ4, ?_, by simp, fun v z => ?_⟩
    · refine (he.and (resolvent_evt hg infty head L R s i)).mono fun f e => ?_
      rw [e.1]
      simp only [run, e.2, hu]
      rfl
    · intro t ht
      simp only [List.mem_singleton] at ht
      subst ht
      refine ⟨?_, rfl⟩
      intro n hn
      simp only [hρ1, rvars_renRule, Finset.mem_image] at hn
      obtain ⟨m, hm, rfl⟩ := hn
      exact (hρ3 m hm).2
    · simp only [List.map_cons, List.map_nil, T_cons, T_nil, add_zero]
      rw [hρ1, contrib_ren hρ2, ht', contrib_made hx hy hspec ht hs' (hV bs hspec)]

theorem tryRule_spec {K : Nat} {head : Tm} {L : List (Lit W)} {q : Tm} {R : List (Lit W)}
    (hr : Below K (⟨head, L ++ .sub q :: R⟩ : WRule W)) (s : WRule W) (i : Nat) (st : US W) (hK : K ≤ st.k) :
    ∃ out k', Evt (fun f => tryRule f q (resolvent f infty head L R) (s, i) noHeap st = some (noHeap, ⟨st.out ++ out, k'⟩, .done)) ∧
      st.k ≤ k' ∧ (∀ t ∈ out, Below k' t.1 ∧ t.2 = some i) ∧ out.length ≤ 1 ∧
      ∀ v x, T (out.map Prod.fst) v x = contribAt head L q R v (contrib s v) x := by
  classical
  obtain ⟨ρ, hρ1, hρ2, hρ3, hρ4⟩ := freshR_spec st.k s
  set s' := (freshR st.k s).1 with hs'
  set Vr := rvars (⟨head, L ++ .sub q :: R⟩ : WRule W) with hVr
  have hVs : ∀ n ∈ rvars s', st.k ≤ n := by
    intro n hn
    rw [hρ1, rvars_renRule, Finset.mem_image] at hn
    obtain ⟨m, hm, rfl⟩ := hn
    exact (hρ3 m hm).1
  have hdis : Disjoint Vr (rvars s') := by
    rw [Finset.disjoint_left]
    intro n h1 h2
    have := hr n h1
    have := hVs n h2
    omega
  have hq : vars q ⊆ Vr := by
    intro n hn
    simp only [hVr, rvars, bodyVars_append, bodyVars, litVars, Finset.mem_union]
    exact .inr (.inr (.inl hn))
  have hh : vars head ⊆ Vr := by
    intro n hn; simp only [hVr, rvars, Finset.mem_union]; exact .inl hn
  have hL : bodyVars L ⊆ Vr := by
    intro n hn
    simp only [hVr, rvars, bodyVars_append, bodyVars, litVars, Finset.mem_union]
    exact .inr (.inl hn)
  have hR : bodyVars R ⊆ Vr := by
    intro n hn
    simp only [hVr, rvars, bodyVars_append, bodyVars, litVars, Finset.mem_union]
    exact .inr (.inr (.inr hn))
  have hsh : vars s'.head ⊆ rvars s' := by intro n hn; simp only [rvars, Finset.mem_union]; exact .inl hn
  have hsb : bodyVars s'.body ⊆ rvars s' := by intro n hn; simp only [rvars, Finset.mem_union]; exact .inr hn
  have ht : rvars (⟨head, L ++ s'.body ++ R⟩ : WRule W) ⊆ Vr ∪ rvars s' := by
    intro n hn
    simp only [rvars, bodyVars_append, Finset.mem_union] at hn
    rw [Finset.mem_union]
    rcases hn with h | (h | h) | h
    · exact .inl (hh h)
    · exact .inl (hL h)
    · exact .inr (hsb h)
    · exact .inl (hR h)
  obtain ⟨out, k', h1, h2, h3, h4, h5⟩ := unify_resolvent (V := Vr ∪ rvars s') (x := s'.head) (y := q)
    (head := head) (L := L) (R := R) (s := s')
    (fun n hn => Finset.mem_union_right _ (hsh hn)) (fun n hn => Finset.mem_union_left _ (hq hn)) ht Finset.subset_union_right (by
      intro bs hspec n hn hb
      cases hspec with
      | ok _ hg hr' hn' hd hv =>
      have heq : s'.head.sub (res (bindAll noHeap bs)) = q.sub (res (bindAll noHeap bs)) := ((hr' _).1 hg.respects_res).2
      have hself : n ∈ vars (res (bindAll noHeap bs) n) := by rw [res_unbound hb]; simp
      rcases Finset.mem_union.1 hn with h | h
      · simp only [hVr, rvars, bodyVars_append, bodyVars, litVars, Finset.mem_union] at h
        rcases h with h | h | h | h
        · exact .inl (mem_rvars_sub.2 ⟨n, by simp only [rvars, Finset.mem_union]; exact .inl h, hself⟩)
        · exact .inl (mem_rvars_sub.2 ⟨n, by simp only [rvars, bodyVars_append, Finset.mem_union]; exact .inr (.inl (.inl h)), hself⟩)
        · right
          have : n ∈ vars (q.sub (res (bindAll noHeap bs))) := mem_vars_sub.2 ⟨n, h, hself⟩
          rw [← heq] at this
          simp only [rvars, subRule, Finset.mem_union]
          exact .inl this
        · exact .inl (mem_rvars_sub.2 ⟨n, by simp only [rvars, bodyVars_append, Finset.mem_union]; exact .inr (.inr h), hself⟩)
      · exact .inr (mem_rvars_sub.2 ⟨n, h, hself⟩))
    (some i) { st with k := (freshR st.k s).2 }
  refine ⟨out, k', h1, le_trans hρ4 h2, h3, h4, fun v x => ?_⟩
  rw [h5]
  have hc : ∀ y, contrib s v y = contrib s' v y := fun y => by rw [hρ1, contrib_ren hρ2]
  rw [show contrib s v = contrib s' v from funext hc]
  have step : contribAt head L q R v (contrib s' v) x = isum fun a : Asg Vr => isum fun b : Asg (rvars s') =>
      if gsub (ext b) s'.head = gsub (ext a) q then
        (if gsub (ext a) head = x then bv v (ext a) L * bv v (ext b) s'.body * bv v (ext a) R else 0) else 0 := by
    unfold contribAt contrib
    refine isum_congr fun a => ?_
    split
    · rw [mul_isum, isum_mul]
      refine isum_congr fun b => ?_
      split
      · rfl
      · simp
    · exact ((isum_congr fun b => by simp).trans isum_zero).symm
  rw [step, ← isum_union hdis]
  refine isum_congr fun c => ?_
  have c1 : ∀ n ∈ Vr, ext (cut Vr (ext c)) n = ext c n := fun n hn => ext_cut hn
  have c2 : ∀ n ∈ rvars s', ext (cut (rvars s') (ext c)) n = ext c n := fun n hn => ext_cut hn
  rw [gsub_congr (t := s'.head) (fun n hn => c2 n (hsh hn)), gsub_congr (t := q) (fun n hn => c1 n (hq hn)),
    gsub_congr (t := head) (fun n hn => c1 n (hh hn)), bv_congr (b := L) (fun n hn => c1 n (hL hn)),
    bv_congr (b := R) (fun n hn => c1 n (hR hn)), bv_congr (b := s'.body) (fun n hn => c2 n (hsb hn)), bv_append, bv_append]

theorem loop_spec {K : Nat} {head : Tm} {L : List (Lit W)} {q : Tm} {R : List (Lit W)}
    (hr : Below K (⟨head, L ++ .sub q :: R⟩ : WRule W)) : ∀ (ds : List (WRule W × Nat)) (st : US W), K ≤ st.k →
    ∃ out k', Evt (fun f => forEach ds (tryRule f q (resolvent f infty head L R)) noHeap st = some (noHeap, ⟨st.out ++ out, k'⟩, .done)) ∧
      st.k ≤ k' ∧ (∀ t ∈ out, Below k' t.1) ∧ (out.map Prod.snd).Sublist (ds.map fun d => some d.2) ∧
      ∀ v x, T (out.map Prod.fst) v x = contribAt head L q R v (T (ds.map Prod.fst) v) x
  | [], st, _ => ⟨[], st.k, .of_all fun f => by simp [forEach], le_refl _, by simp, by simp, fun v x => by
      rw [show T (([] : List (WRule W × Nat)).map Prod.fst) v = fun _ => 0 from rfl, contribAt_zero]; rfl⟩
  | (s, i) :: ds, st, hK => by
    obtain ⟨o1, k1, a1, a2, a3, a4, a5⟩ := tryRule_spec hr s i st hK
    obtain ⟨o2, k2, b1, b2, b3, b4, b5⟩ := loop_spec hr ds ⟨st.out ++ o1, k1⟩ (le_trans hK a2)
    refine ⟨o1 ++ o2, k2, (a1.and b1).mono fun f e => ?_, le_trans a2 b2, ?_, ?_, fun v x => ?_⟩
    · simp only [forEach, e.1, e.2, List.append_assoc]
    · intro t ht
      rcases List.mem_append.1 ht with h | h
      · intro n hn; exact lt_of_lt_of_le ((a3 t h).1 n hn) b2
      · exact b3 t h
    · simp only [List.map_append, List.map_cons]
      have : (o1.map Prod.snd).Sublist [some i] := by
        match o1, a3, a4 with
        | [], _, _ => simp
        | [t], a3, _ => simp [(a3 t (by simp)).2]
        | _ :: _ :: _, _, a4 => simp at a4
      exact this.append b4
    · rw [List.map_append, T_append, a5, b5, ← contribAt_add]
      exact contribAt_congr (fun θ => (T_cons s _ v _).symm) x

/-! ### Spec: what a subgoal is worth according to a list of definitions -/

/-- the value of a ground builtin atom; `none` for other atoms -/
def bval {W : Type} [CommSemiring W] (ops : Ops) : Tm → Option W
  | .app [.con c, a, b] => match ops c with
    | some o => some (if o a b then 1 else 0)
    | none => if c = .str "=" then some (if a = b then 1 else 0) else none
  | _ => none

/-- the value of a ground atom given values `v` for the bodies of its definitions -/
noncomputable def defn (ops : Ops) (ds : List (WRule W)) (v : GTm → W) (y : GTm) : W :=
  (bval ops y.1).getD (T ds v y)

/-- a comparison that cannot be decided yet -/
def Delayed (ops : Ops) (q : Tm) : Prop := ∃ c o x y, q = .app [.con c, x, y] ∧ ops c = some o ∧ (vars x ≠ ∅ ∨ vars y ≠ ∅)

open Classical in
/-- what takes the place of the subgoal: its definition, except that undecided comparisons stay -/
noncomputable def answer (ops : Ops) (ds : List (WRule W)) (q : Tm) (v : GTm → W) : GTm → W :=
  if Delayed ops q then v else defn ops ds v

/-- rule heads have a functor that is not a builtin -/
def UserHead (ops : Ops) (h : Tm) : Prop := ∃ c as, h = .app (.con c :: as) ∧ ops c = none ∧ c ≠ .str "="

/-- the subgoals that are modelled -/
def Modelled (ops : Ops) (q : Tm) : Prop :=
  ∃ c as, q = .app (.con c :: as) ∧ unmodelled c = false ∧ ((ops c ≠ none ∨ c = .str "=") → as.length = 2)

theorem offers_T {c : Const} {as : List Tm} (ds : List (WRule W)) (hd : ∀ s ∈ ds, ∃ c as, s.head = .app (.con c :: as)) (θ : Nat → GTm)
    (v : GTm → W) : T ((offers ds c).map Prod.fst) v (gsub θ (.app (.con c :: as))) = T ds v (gsub θ (.app (.con c :: as))) := by
  have key : ∀ (l : List (WRule W × Nat)), (∀ s ∈ l, ∃ c as, s.1.head = .app (.con c :: as)) →
      T ((l.filter fun ir => hfn ir.1.head == some c).map Prod.fst) v (gsub θ (.app (.con c :: as))) =
        T (l.map Prod.fst) v (gsub θ (.app (.con c :: as))) := by
    intro l
    induction l with
    | nil => intro _; rfl
    | cons a l ih =>
      intro hl
      have ih := ih fun s hs => hl s (List.mem_cons_of_mem _ hs)
      rw [List.filter_cons]
      split
      · simp only [List.map_cons, T_cons, ih]
      · rename_i hne
        rw [ih, List.map_cons, T_cons, contrib_zero, zero_add]
        intro θ' h
        obtain ⟨c', as', hc⟩ := hl a (by simp)
        rw [hc] at h
        have := congrArg Subtype.val h
        simp only [gsub, sub_app, List.map_cons, sub_con, Tm.app.injEq, List.cons.injEq, Tm.con.injEq] at this
        apply hne
        simp [hc, hfn, this.1]
  have h2 : ds.zipIdx.map Prod.fst = ds := by simp
  rw [offers, key ds.zipIdx, h2]
  intro s hs
  exact hd s.1 (by have := List.mem_map_of_mem (f := Prod.fst) hs; rwa [h2] at this)

theorem sub_closed {t : Tm} (h : vars t = ∅) (σ : Nat → Tm) : t.sub σ = t := by
  conv_rhs => rw [← sub_id t]
  exact sub_congr fun n hn => by rw [h] at hn; simp at hn

theorem res_noHeap : res noHeap = Tm.var := by
  funext n; exact res_unbound rfl

theorem spec_refl (x : Tm) : Spec noHeap x x (some []) := by
  refine .ok [] ?_ ?_ ?_ ?_ ?_
  · exact good_noHeap
  · intro τ; simp [bindAll]
  · simp
  · simp
  · intro t z hz
    refine ⟨.inl hz, by simp⟩

/-- the loop body reached without unification -/
theorem plain_resolvent {V : Finset Nat} {head : Tm} {L R : List (Lit W)} {s : WRule W}
    (ht : rvars ⟨head, L ++ s.body ++ R⟩ ⊆ V) (hs' : rvars s ⊆ V)
    (hV : ∀ n ∈ V, n ∈ rvars (⟨head, L ++ s.body ++ R⟩ : WRule W) ∨ n ∈ rvars s) (i : Option Nat) (st : US W) :
    ∃ out k', Evt (fun f => resolvent f infty head L R s i noHeap st = some (noHeap, ⟨st.out ++ out, k'⟩, .done)) ∧
      st.k ≤ k' ∧ (∀ t ∈ out, Below k' t.1 ∧ t.2 = i) ∧ out.length ≤ 1 ∧
      ∀ v z, T (out.map Prod.fst) v z = isum fun a : Asg V =>
        (if gsub (ext a) head = z then bv v (ext a) (L ++ s.body ++ R) else 0) := by
  set t' := made infty (subRule (res noHeap) ⟨head, L ++ s.body ++ R⟩) (subRule (res noHeap) s) with ht'
  obtain ⟨ρ, hρ1, hρ2, hρ3, hρ4⟩ := freshR_spec st.k t'
  refine ⟨[((freshR st.k t').1, i)], (freshR st.k t').2, (resolvent_evt good_noHeap infty head L R s i).mono fun f e => e st, hρ4, ?_, by simp, fun v z => ?_⟩
  · intro t ht
    simp only [List.mem_singleton] at ht
    subst ht
    refine ⟨?_, rfl⟩
    intro n hn
    simp only [hρ1, rvars_renRule, Finset.mem_image] at hn
    obtain ⟨m, hm, rfl⟩ := hn
    exact (hρ3 m hm).2
  · simp only [List.map_cons, List.map_nil, T_cons, T_nil, add_zero]
    have := contrib_made (V := V) (x := .con (.int 0)) (y := .con (.int 0)) (by simp) (by simp) (spec_refl _) ht hs' (by
      intro n hn _
      have hself : n ∈ vars (res noHeap n) := by rw [res_noHeap]; simp
      rcases hV n hn with h | h
      · exact .inl (mem_rvars_sub.2 ⟨n, h, hself⟩)
      · exact .inr (mem_rvars_sub.2 ⟨n, h, hself⟩)) v z
    simp only [if_true] at this
    rw [hρ1, contrib_ren hρ2, ht']
    exact this

theorem lookup_spec {K : Nat} {ops : Ops} {head : Tm} {L : List (Lit W)} {q : Tm} {R : List (Lit W)} {ds : List (WRule W)}
    (hr : Below K (⟨head, L ++ .sub q :: R⟩ : WRule W)) (hd : ∀ s ∈ ds, UserHead ops s.head) (hq : Modelled ops q) :
    ∃ out k', Evt (fun f => lookup f ops ds q (resolvent f infty head L R) noHeap ⟨[], K⟩ = some (noHeap, ⟨out, k'⟩, .done)) ∧
      K ≤ k' ∧ (∀ t ∈ out, Below k' t.1) ∧ (∀ t ∈ out, ∀ i, t.2 = some i → i < ds.length) ∧
      ∀ v x, T (out.map Prod.fst) v x = contribAt head L q R v (answer ops ds q v) x := by
  classical
  obtain ⟨c, as, rfl, hun, hlen⟩ := hq
  set q : Tm := .app (.con c :: as) with hqd
  set V := rvars (⟨head, L ++ .sub q :: R⟩ : WRule W) with hV
  have hqV : vars q ⊆ V := by
    intro n hn
    simp only [hV, rvars, bodyVars_append, bodyVars, litVars, Finset.mem_union]
    exact .inr (.inr (.inl hn))
  -- the conditions for builtin rules, whose head is the subgoal itself
  have c1 : ∀ b : List (Lit W), bodyVars b ⊆ vars q → rvars (⟨head, L ++ b ++ R⟩ : WRule W) ⊆ V := by
    intro b hb n hn
    simp only [rvars, bodyVars_append, Finset.mem_union] at hn
    simp only [hV, rvars, bodyVars_append, bodyVars, litVars, Finset.mem_union]
    rcases hn with h | (h | h) | h
    · exact .inl h
    · exact .inr (.inl h)
    · exact .inr (.inr (.inl (hb h)))
    · exact .inr (.inr (.inr h))
  have c2 : ∀ b : List (Lit W), bodyVars b ⊆ vars q → rvars (⟨q, b⟩ : WRule W) ⊆ V := by
    intro b hb n hn
    simp only [rvars, Finset.mem_union] at hn
    rcases hn with h | h
    · exact hqV h
    · exact hqV (hb h)
  have c3 : ∀ b : List (Lit W), ∀ n ∈ V, n ∈ rvars (⟨head, L ++ b ++ R⟩ : WRule W) ∨ n ∈ rvars (⟨q, b⟩ : WRule W) := by
    intro b n hn
    simp only [hV, rvars, bodyVars_append, bodyVars, litVars, Finset.mem_union] at hn
    simp only [rvars, bodyVars_append, Finset.mem_union]
    tauto
  have noOffers : ∀ (o : Tm → Tm → Bool), ops c = some o → offers ds c = [] := by
    intro o ho
    rw [offers, List.filter_eq_nil_iff]
    intro ir hir h
    have hm : ir.1 ∈ ds := by
      have := List.mem_map_of_mem (f := Prod.fst) hir
      simpa using this
    obtain ⟨c', as', h1, h2, _⟩ := hd _ hm
    rw [h1] at h
    simp only [hfn, beq_iff_eq, Option.some.injEq] at h
    rw [h, ho] at h2; cases h2
  by_cases hcmp : ∃ o, ops c = some o
  · obtain ⟨o, ho⟩ := hcmp
    obtain ⟨x, y, rfl⟩ := List.length_eq_two.1 (hlen (.inl (by simp [ho])))
    obtain ⟨fx, ex⟩ := good_noHeap.deref x
    obtain ⟨fy, ey⟩ := good_noHeap.deref y
    rw [res_noHeap, sub_id] at ex ey
    have gx := groundF_evt _ _ _ ex
    have gy := groundF_evt _ _ _ ey
    have dx := good_noHeap.evt_deref x
    have dy := good_noHeap.evt_deref y
    rw [res_noHeap, sub_id] at dx dy
    by_cases hg : vars x = ∅ ∧ vars y = ∅
    · have hnd : ¬ Delayed ops q := by
        rintro ⟨c', o', x', y', h1, h2, h3⟩
        simp only [hqd, Tm.app.injEq, List.cons.injEq, and_true] at h1
        rw [← h1.2.1, ← h1.2.2] at h3
        rcases h3 with h3 | h3
        · exact h3 hg.1
        · exact h3 hg.2
      have hval : ∀ v θ, defn ops ds v (gsub θ q) = if o x y then 1 else 0 := by
        intro v θ
        have e1 : x.sub (fun n => (θ n).1) = x := sub_closed hg.1 _
        have e2 : y.sub (fun n => (θ n).1) = y := sub_closed hg.2 _
        simp only [defn, gsub, hqd, sub_app, List.map_cons, List.map_nil, sub_con, bval, ho, Option.getD_some, e1, e2]
      by_cases hb : o x y = true
      · obtain ⟨out, k', h1, h2, h3, h4, h5⟩ := plain_resolvent (V := V) (s := ⟨q, [.val 1]⟩) (head := head) (L := L) (R := R)
          (c1 [.val 1] (by simp [bodyVars, litVars])) (c2 [.val 1] (by simp [bodyVars, litVars])) (c3 [.val 1]) none ⟨[], K⟩
        refine ⟨out, k', ?_, h2, fun t ht => (h3 t ht).1, fun t ht i hi => ?_, fun v z => ?_⟩
        · refine ((((gx.and gy).and dx).and dy).and h1).mono fun f e => ?_
          simp only [lookup, hqd, hun, ho, e.1.1.1.1, e.1.1.1.2, e.1.1.2, e.1.2, hg.1, hg.2, decide_true, hb, if_true]
          simpa using e.2
        · rw [(h3 t ht).2] at hi; cases hi
        · rw [h5, contribAt]
          refine isum_congr fun a => ?_
          simp only [answer, hnd, if_false, hval, hb, if_true, bv_append, bv_cons, bv_nil, lv, mul_one]
      · refine ⟨[], K, ?_, le_refl _, by simp, by simp, fun v z => ?_⟩
        · refine (((gx.and gy).and dx).and dy).mono fun f e => ?_
          simp only [lookup, hqd, hun, ho, e.1.1.1, e.1.1.2, e.1.2, e.2, hg.1, hg.2, decide_true, hb, if_false]
          simp
        · rw [contribAt_congr (w := fun _ => 0) (fun θ => by simp [answer, hnd, hval, hb]), contribAt_zero]; rfl
    · have hdl : Delayed ops q := ⟨c, o, x, y, rfl, ho, by tauto⟩
      obtain ⟨out, k', h1, h2, h3, h4, h5⟩ := plain_resolvent (V := V) (s := ⟨q, [.sub q]⟩) (head := head) (L := L) (R := R)
        (c1 [.sub q] (by simp [bodyVars, litVars])) (c2 [.sub q] (by simp [bodyVars, litVars])) (c3 [.sub q]) none ⟨[], K⟩
      refine ⟨out, k', ?_, h2, fun t ht => (h3 t ht).1, fun t ht i hi => ?_, fun v z => ?_⟩
      · refine ((((gx.and gy).and dx).and dy).and h1).mono fun f e => ?_
        have e2 := e.2
        rw [hqd] at e2
        simp only [lookup, hqd, hun, ho, e.1.1.1.1, e.1.1.1.2, e.1.1.2, e.1.2]
        by_cases hx : vars x = ∅
        · have hy : vars y ≠ ∅ := fun h => hg ⟨hx, h⟩
          simp only [hx, hy, decide_true, decide_false, Bool.false_eq_true, if_false, e2, noOffers o ho, forEach]
          simp
        · simp only [hx, decide_false, Bool.false_eq_true, if_false, e2, noOffers o ho, forEach]
          simp
      · rw [(h3 t ht).2] at hi; cases hi
      · rw [h5, contribAt]
        refine isum_congr fun a => ?_
        simp only [answer, hdl, if_true, bv_append, bv_cons, bv_nil, lv, mul_one]
  · have ho : ops c = none := by
      cases h : ops c with
      | none => rfl
      | some o => exact absurd ⟨o, h⟩ hcmp
    have hnd : ¬ Delayed ops q := by
      rintro ⟨c', o', x', y', h1, h2, h3⟩
      simp only [hqd, Tm.app.injEq, List.cons.injEq, Tm.con.injEq] at h1
      rw [← h1.1, ho] at h2; cases h2
    by_cases hc : c = .str "="
    · subst hc
      obtain ⟨x, y, rfl⟩ := List.length_eq_two.1 (hlen (.inr rfl))
      have hxq : vars x ⊆ vars q := by intro n hn; simp [hqd, hn]
      have hyq : vars y ⊆ vars q := by intro n hn; simp [hqd, hn]
      obtain ⟨out, k', h1, h2, h3, h4, h5⟩ := unify_resolvent (V := V) (x := x) (y := y) (s := ⟨q, [.val 1]⟩) (head := head) (L := L) (R := R)
        (hxq.trans hqV) (hyq.trans hqV)
        (c1 [.val 1] (by simp [bodyVars, litVars])) (c2 [.val 1] (by simp [bodyVars, litVars])) (by
          intro bs _ n hn hb
          have hself : n ∈ vars (res (bindAll noHeap bs) n) := by rw [res_unbound hb]; simp
          rcases c3 [.val 1] n hn with h | h
          · exact .inl (mem_rvars_sub.2 ⟨n, h, hself⟩)
          · exact .inr (mem_rvars_sub.2 ⟨n, h, hself⟩)) none ⟨[], K⟩
      refine ⟨out, k', ?_, h2, fun t ht => (h3 t ht).1, fun t ht i hi => ?_, fun v z => ?_⟩
      · refine h1.mono fun f e => ?_
        simp only [lookup, hqd, hun, ho]
        simpa using e
      · rw [(h3 t ht).2] at hi; cases hi
      · rw [h5, contribAt]
        refine isum_congr fun a => ?_
        have hval : defn ops ds v (gsub (ext a) q) = if gsub (ext a) x = gsub (ext a) y then 1 else 0 := by
          simp only [defn, gsub, hqd, sub_app, List.map_cons, List.map_nil, sub_con, bval, ho, if_true, Option.getD_some,
            Subtype.mk.injEq]
        simp only [answer, hnd, if_false, hval, bv_append, bv_cons, bv_nil, lv]
        split <;> simp
    · obtain ⟨out, k', h1, h2, h3, h4, h5⟩ := loop_spec hr (offers ds c) ⟨[], K⟩ (le_refl _)
      refine ⟨out, k', ?_, h2, h3, fun t ht i hi => ?_, fun v z => ?_⟩
      · refine h1.mono fun f e => ?_
        have : lookup f ops ds q (resolvent f infty head L R) noHeap ⟨[], K⟩ =
            forEach (offers ds c) (tryRule f q (resolvent f infty head L R)) noHeap ⟨[], K⟩ := by
          simp only [lookup, hqd, hun, ho]
          simp only [Bool.false_eq_true, if_false]
          split
          · exact absurd rfl hc
          · rfl
        rw [this, e]; simp
      · have hm := h4.subset (List.mem_map_of_mem (f := Prod.snd) ht)
        rw [hi] at hm
        simp only [List.mem_map, Option.some.injEq] at hm
        obtain ⟨⟨s, i'⟩, hm, rfl⟩ := hm
        simp only [offers, List.mem_filter] at hm
        have := List.mem_zipIdx hm.1
        simp at this ⊢
        omega
      · rw [h5]
        refine contribAt_congr (fun θ => ?_) z
        simp only [answer, hnd, if_false]
        rw [offers_T ds (fun s hs => by obtain ⟨c, as, h, _⟩ := hd s hs; exact ⟨c, as, h⟩)]
        have : bval (W := W) ops (gsub θ q).1 = none := by
          simp only [gsub, hqd, sub_app, List.map_cons, sub_con]
          rw [bval.eq_def]
          split
          · rename_i h
            simp only [Tm.app.injEq, List.cons.injEq, Tm.con.injEq] at h
            rw [← h.1, ho]
            simp [hc]
          · rfl
        rw [defn, this, Option.getD_none]

/-! ### Property C33 -/

/-- what is assumed of an unfolding step: variables are below the allocation mark, the rule and subgoal exist,
definitions have ordinary heads, the subgoal is not an input and is of a modelled kind -/
structure Pre (ops : Ops) (k : Nat) (p d : Prog W) (i j : Nat) (r : WRule W) (q : Tm) : Prop where
  rule : p.rules[i]? = some r
  goal : r.body[j]? = some (.sub q)
  below : Below k r
  heads : ∀ s ∈ d.rules, UserHead ops s.head
  kind : Modelled ops q
  notInput : ∀ t ∈ d.inputs, ∀ θ φ, gsub θ t ≠ gsub φ q

theorem isInput_evt {q : Tm} : ∀ {ts : List Tm}, (∀ t ∈ ts, ∀ θ φ, gsub θ t ≠ gsub φ q) → Evt (fun f => isInput f q noHeap ts = some false)
  | [], _ => .of_all fun f => rfl
  | t :: ts, h => by
    obtain ⟨r, hs, he⟩ := unify_result good_noHeap t q
    cases r with
    | some bs =>
      cases hs with
      | ok _ hg hr hn hd hv =>
      have e := ((hr _).1 hg.respects_res).2
      refine absurd ?_ (h t (by simp) (fun n => gsub (fun _ => g0) (res (bindAll noHeap bs) n)) (fun n => gsub (fun _ => g0) (res (bindAll noHeap bs) n)))
      rw [← gsub_sub, ← gsub_sub, e]
    | none =>
      refine (he.and (isInput_evt (ts := ts) fun t ht => h t (List.mem_cons_of_mem _ ht))).mono fun f e => ?_
      simp only [isInput, unifiesF, e.1, run, Option.map_some, e.2]

theorem split_body {r : WRule W} {q : Tm} {j : Nat} (h : r.body[j]? = some (.sub q)) :
    r.body = r.body.take j ++ .sub q :: r.body.drop (j + 1) := by
  obtain ⟨hj, he⟩ := List.getElem?_eq_some_iff.1 h
  rw [← he, List.getElem_cons_drop, List.take_append_drop]

theorem T_erase {p : List (WRule W)} {r : WRule W} (h : r ∈ p) (v : GTm → W) (x : GTm) :
    T p v x = T (p.erase r) v x + contrib r v x := by
  rw [T_perm (List.perm_cons_erase h), T_cons, add_comm]

/-- **C33 (one step).**  Unfolding terminates normally.  The step operator of the new program is that of the
old one, with the rule's contribution computed from the definitions of the subgoal in place of its value.
The new rules are renamed apart and record the number of the definition they come from. -/
theorem C33_step {ops : Ops} {k : Nat} {p d : Prog W} {i j : Nat} {r : WRule W} {q : Tm} (h : Pre ops k p d i j r q) :
    ∃ new k', Evt (fun f => unfold f ops infty k p d i j = some (p.rules.erase r ++ new.map Prod.fst, ⟨new, k'⟩, .done)) ∧
      k ≤ k' ∧ (∀ t ∈ new, Below k' t.1) ∧ (∀ t ∈ new, ∀ n, t.2 = some n → n < d.rules.length) ∧
      (∀ v x, T p.rules v x = T (p.rules.erase r) v x + contribAt r.head (r.body.take j) q (r.body.drop (j + 1)) v v x) ∧
      ∀ v x, T (p.rules.erase r ++ new.map Prod.fst) v x =
        T (p.rules.erase r) v x + contribAt r.head (r.body.take j) q (r.body.drop (j + 1)) v (answer ops d.rules q v) x := by
  have hb := split_body h.goal
  have hr : r = ⟨r.head, r.body.take j ++ .sub q :: r.body.drop (j + 1)⟩ := by rw [← hb]
  obtain ⟨new, k', h1, h2, h3, h4, h5⟩ := lookup_spec (K := k) (ops := ops) (ds := d.rules) (q := q) (head := r.head)
    (L := r.body.take j) (R := r.body.drop (j + 1)) (hr ▸ h.below) h.heads h.kind
  refine ⟨new, k', ?_, h2, h3, h4, fun v x => ?_, fun v x => ?_⟩
  · refine (h1.and (isInput_evt h.notInput)).mono fun f e => ?_
    simp only [unfold, h.rule, h.goal, e.2, e.1]
  · rw [contribAt_self, ← hr]
    exact T_erase (List.mem_of_getElem? h.rule) v x
  · rw [T_append, h5]

/-- **C33 (valuations that respect the definitions).**  Where the values of the subgoal's instances agree with their
definitions, the old and new program have the same step operator. -/
theorem C33_same_step {ops : Ops} {k : Nat} {p d : Prog W} {i j : Nat} {r : WRule W} {q : Tm} (h : Pre ops k p d i j r q) :
    ∃ new st, Evt (fun f => unfold f ops infty k p d i j = some (new, st, .done)) ∧
      ∀ v, (∀ θ, v (gsub θ q) = defn ops d.rules v (gsub θ q)) → ∀ x, T new v x = T p.rules v x := by
  obtain ⟨new, k', h1, _, _, _, h5, h6⟩ := C33_step h
  refine ⟨_, _, h1, fun v hv x => ?_⟩
  rw [h6, h5]
  congr 1
  refine contribAt_congr (fun θ => ?_) x
  unfold answer
  split
  · rfl
  · exact (hv θ).symm

/-- the data of a program: builtin atoms have their fixed value, and other atoms have data only if they are inputs -/
def Data (ops : Ops) (ins : List Tm) (d : GTm → W) : Prop :=
  ∀ x : GTm, match bval ops x.1 with
    | some b => d x = b
    | none => (∀ t ∈ ins, ∀ θ, gsub θ t ≠ x) → d x = 0

theorem T_builtin {ops : Ops} {ps : List (WRule W)} (hp : ∀ s ∈ ps, UserHead ops s.head) {x : GTm} {b : W} (hb : bval ops x.1 = some b)
    (v : GTm → W) : T ps v x = 0 := by
  induction ps with
  | nil => rfl
  | cons s ps ih =>
    rw [T_cons, ih fun s hs => hp s (List.mem_cons_of_mem _ hs), contrib_zero, add_zero]
    rintro θ rfl
    obtain ⟨c, as, h1, h2, h3⟩ := hp s (by simp)
    simp only [gsub, h1, sub_app, List.map_cons, sub_con] at hb
    rw [bval.eq_def] at hb
    split at hb
    · rename_i e
      simp only [Tm.app.injEq, List.cons.injEq, Tm.con.injEq] at e
      rw [← e.1, h2] at hb
      simp [h3] at hb
    · cases hb

/-- what data and rules give to an instance of the subgoal is its definition -/
theorem defn_eq {ops : Ops} {ps : List (WRule W)} {ins : List Tm} {d : GTm → W} (hd : Data ops ins d) {q : Tm}
    (hp : ∀ s ∈ ps, UserHead ops s.head) (hq : ∀ t ∈ ins, ∀ θ φ, gsub θ t ≠ gsub φ q) (v : GTm → W) (φ : Nat → GTm) :
    d (gsub φ q) + T ps v (gsub φ q) = defn ops ps v (gsub φ q) := by
  have := hd (gsub φ q)
  unfold defn
  cases hb : bval (W := W) ops (gsub φ q).1 with
  | some b => rw [hb] at this; simp only at this; rw [this, T_builtin hp hb, add_zero]; rfl
  | none => rw [hb] at this; simp only at this; rw [this fun t ht θ => hq t ht θ φ, zero_add]; rfl

/-- **C33 (solutions).**  Every solution of the program solves the unfolded program. -/
theorem C33_solutions {ops : Ops} {k : Nat} {p : Prog W} {i j : Nat} {r : WRule W} {q : Tm} (h : Pre ops k p p i j r q)
    {d : GTm → W} (hd : Data ops p.inputs d) :
    ∃ new st, Evt (fun f => unfold f ops infty k p p i j = some (new, st, .done)) ∧ ∀ v, Sol p.rules d v → Sol new d v := by
  obtain ⟨new, st, h1, h2⟩ := C33_same_step h
  refine ⟨new, st, h1, fun v hv x => ?_⟩
  rw [h2 v (fun θ => ?_) x]
  · exact hv x
  · rw [← defn_eq hd h.heads h.notInput]
    exact hv _

/-- **C33 (converse).**  If the rule cannot derive the subgoal it is unfolded at, there are no new solutions. -/
theorem C33_nonrecursive {ops : Ops} {k : Nat} {p : Prog W} {i j : Nat} {r : WRule W} {q : Tm} (h : Pre ops k p p i j r q)
    {d : GTm → W} (hd : Data ops p.inputs d)
    (hr : ∀ θ φ, gsub θ r.head ≠ gsub φ q) :
    ∃ new st, Evt (fun f => unfold f ops infty k p p i j = some (new, st, .done)) ∧ ∀ v, Sol p.rules d v ↔ Sol new d v := by
  obtain ⟨new, k', h1, _, _, _, h5, h6⟩ := C33_step h
  have heq : ∀ v, (∀ θ, v (gsub θ q) = defn ops p.rules v (gsub θ q)) → ∀ x, T (p.rules.erase r ++ new.map Prod.fst) v x = T p.rules v x := by
    intro v hv x
    rw [h6, h5]
    congr 1
    refine contribAt_congr (fun θ => ?_) x
    unfold answer
    split
    · rfl
    · exact (hv θ).symm
  have zero : ∀ v u φ, contribAt r.head (r.body.take j) q (r.body.drop (j + 1)) v u (gsub φ q) = 0 := by
    intro v u φ
    unfold contribAt
    refine (isum_congr fun a => ?_).trans isum_zero
    rw [if_neg (hr _ _)]
  refine ⟨_, _, h1, fun v => ⟨fun hv x => ?_, fun hv x => ?_⟩⟩
  · rw [heq v (fun θ => ?_) x]
    · exact hv x
    · rw [← defn_eq hd h.heads h.notInput]; exact hv _
  · rw [← heq v (fun θ => ?_) x]
    · exact hv x
    · rw [← defn_eq hd h.heads h.notInput, hv (gsub θ q), h6, h5, zero, zero]

section least
variable {W : Type} [OSemi W] [DecidableEq W]

theorem contribAt_mono {head : Tm} {L : List (Lit W)} {q : Tm} {R : List (Lit W)} {v v' u u' : GTm → W} (hv : ∀ x, v x ≤ v' x)
    (hu : ∀ θ, u (gsub θ q) ≤ u' (gsub θ q)) (x : GTm) : contribAt head L q R v u x ≤ contribAt head L q R v' u' x := by
  unfold contribAt
  refine OSemi.isum_le fun a => ?_
  split
  · exact OSemi.mul_le (OSemi.mul_le (bv_mono hv _ _) (hu _)) (bv_mono hv _ _)
  · exact le_refl _

/-- **C33 (least solution).**  Naive evaluation of the unfolded program is never behind that of the program, and
never more than twice as fast: the two have the same upper bounds, so the same limit, on every item. -/
theorem C33_rounds {ops : Ops} {k : Nat} {p : Prog W} {i j : Nat} {r : WRule W} {q : Tm} (h : Pre ops k p p i j r q)
    {d : GTm → W} (hd : Data ops p.inputs d) :
    ∃ new st, Evt (fun f => unfold f ops infty k p p i j = some (new, st, .done)) ∧
      (∀ n x, rounds p.rules d n x ≤ rounds new d n x) ∧ ∀ n x, rounds new d n x ≤ rounds p.rules d (2 * n) x := by
  obtain ⟨new, k', h1, _, _, _, h5, h6⟩ := C33_step h
  have hdef : ∀ v φ, d (gsub φ q) + T p.rules v (gsub φ q) = defn ops p.rules v (gsub φ q) := defn_eq hd h.heads h.notInput
  have up : ∀ n θ, rounds p.rules d n (gsub θ q) ≤ answer ops p.rules q (rounds p.rules d n) (gsub θ q) := by
    intro n θ
    unfold answer
    split
    · exact le_refl _
    · rw [← hdef]; exact rounds_succ p.rules d n _
  have down : ∀ n θ, answer ops p.rules q (rounds p.rules d n) (gsub θ q) ≤ rounds p.rules d (n + 1) (gsub θ q) := by
    intro n θ
    unfold answer
    split
    · exact rounds_succ p.rules d n _
    · rw [← hdef]; exact le_refl _
  refine ⟨_, _, h1, fun n => ?_, fun n => ?_⟩
  · induction n with
    | zero => intro x; exact le_refl _
    | succ n ih =>
      intro x
      refine le_trans ?_ (OSemi.add_le (le_refl (d x)) (T_mono ih _ x))
      refine OSemi.add_le (le_refl _) ?_
      rw [h5, h6]
      exact OSemi.add_le (le_refl _) (contribAt_mono (fun _ => le_refl _) (up n) x)
  · induction n with
    | zero => intro x; exact le_refl _
    | succ n ih =>
      intro x
      refine le_trans (OSemi.add_le (le_refl (d x)) (T_mono ih _ x)) ?_
      rw [show 2 * (n + 1) = (2 * n + 1) + 1 by omega]
      refine OSemi.add_le (le_refl _) ?_
      rw [h5, h6]
      exact OSemi.add_le (T_mono (rounds_succ _ _ _) _ x) (contribAt_mono (rounds_succ _ _ _) (down _) x)

theorem C33_least {ops : Ops} {k : Nat} {p : Prog W} {i j : Nat} {r : WRule W} {q : Tm} (h : Pre ops k p p i j r q)
    {d : GTm → W} (hd : Data ops p.inputs d) :
    ∃ new st, Evt (fun f => unfold f ops infty k p p i j = some (new, st, .done)) ∧
      ∀ x b, (∀ n, rounds p.rules d n x ≤ b) ↔ ∀ n, rounds new d n x ≤ b := by
  obtain ⟨new, st, h1, h2, h3⟩ := C33_rounds h hd
  exact ⟨new, st, h1, fun x b => ⟨fun hb n => le_trans (h3 n x) (hb _), fun hb n => le_trans (h2 n x) (hb _)⟩⟩

end least

/-- **C33 (refusals).**  Unfolding a constant, or a subgoal that can match an input, is refused. -/
theorem C33_refuses {ops : Ops} {inf : W} {k : Nat} {p d : Prog W} {i j : Nat} {r : WRule W} (hr : p.rules[i]? = some r) :
    (∀ c, r.body[j]? = some (.val c) → ∀ f, ∃ o, unfold f ops inf k p d i j = some (o, ⟨[], k⟩, assertion)) ∧
    ∀ q, r.body[j]? = some (.sub q) → (∃ t ∈ d.inputs, ∃ θ, t.sub θ = q.sub θ) →
      Evt (fun f => ∃ o, unfold f ops inf k p d i j = some (o, ⟨[], k⟩, assertion)) := by
  refine ⟨fun c hc f => ⟨[], by simp only [unfold, hr, hc]⟩, fun q hq ht => ?_⟩
  have key : ∀ ts : List Tm, (∃ t ∈ ts, ∃ θ, t.sub θ = q.sub θ) → Evt (fun f => isInput f q noHeap ts = some true) := by
    intro ts
    induction ts with
    | nil => rintro ⟨t, ht, _⟩; simp at ht
    | cons t ts ih =>
      intro h
      obtain ⟨r', hs, he⟩ := unify_result good_noHeap t q
      cases r' with
      | some bs => exact he.mono fun f e => by simp only [isInput, unifiesF, e, run, Option.map_some]
      | none =>
        cases hs with
        | fail hf =>
        have : ∃ t ∈ ts, ∃ θ, t.sub θ = q.sub θ := by
          obtain ⟨t', ht', θ, e⟩ := h
          rcases List.mem_cons.1 ht' with rfl | h'
          · exact absurd e (hf θ (respects_noHeap θ))
          · exact ⟨t', h', θ, e⟩
        exact (he.and (ih this)).mono fun f e => by simp only [isInput, unifiesF, e.1, run, Option.map_some, e.2]
  exact (key _ ht).mono fun f e => ⟨[], by simp only [unfold, hr, hq, e]⟩

section Examples

/-- comparison of integers -/
def ltOps : Ops := fun c => if c = .str "<" then some fun x y => match x, y with
  | .con (.int a), .con (.int b) => decide (a < b)
  | _, _ => false
  else none

abbrev at' (f : String) (as : List Tm) : Tm := .app (.con (.str f) :: as)

/-- `goal(X) += e(X,Y) * f(Y). f(Z) += g(Z,U) * f(U). f("a") += h.` -/
def demo : Prog TV := ⟨[
  ⟨at' "goal" [.var 0], [.sub (at' "e" [.var 0, .var 1]), .sub (at' "f" [.var 1])]⟩,
  ⟨at' "f" [.var 2], [.sub (at' "g" [.var 2, .var 3]), .sub (at' "f" [.var 3])]⟩,
  ⟨at' "f" [.con (.str "a")], [.sub (at' "h" [])]⟩], [at' "e" [.var 4, .var 5], at' "g" [.var 6, .var 7], at' "h" []]⟩

theorem demo_pre : Pre ltOps 8 demo demo 0 1 ⟨at' "goal" [.var 0], [.sub (at' "e" [.var 0, .var 1]), .sub (at' "f" [.var 1])]⟩
    (at' "f" [.var 1]) where
  rule := rfl
  goal := rfl
  below := by intro n hn; simp [rvars, bodyVars, litVars] at hn; omega
  heads := by
    intro s hs
    simp [demo] at hs
    rcases hs with rfl | rfl | rfl <;> exact ⟨_, _, rfl, by decide, by decide⟩
  kind := ⟨_, _, rfl, by decide, by decide⟩
  notInput := by
    intro t ht θ φ h
    simp [demo] at ht
    have := congrArg Subtype.val h
    rcases ht with rfl | rfl | rfl <;> simp [gsub] at this

/-- unfolding `f(Y)`: two rules, renamed apart; the second has `Y` bound -/
example : unfold 20 ltOps .t 8 demo demo 0 1 = some ([
  ⟨at' "f" [.var 2], [.sub (at' "g" [.var 2, .var 3]), .sub (at' "f" [.var 3])]⟩,
  ⟨at' "f" [.con (.str "a")], [.sub (at' "h" [])]⟩,
  ⟨at' "goal" [.var 10], [.sub (at' "e" [.var 10, .var 11]), .sub (at' "g" [.var 11, .var 12]), .sub (at' "f" [.var 12])]⟩,
  ⟨at' "goal" [.var 13], [.sub (at' "e" [.var 13, .con (.str "a")]), .sub (at' "h" [])]⟩],
  ⟨[(⟨at' "goal" [.var 10], [.sub (at' "e" [.var 10, .var 11]), .sub (at' "g" [.var 11, .var 12]), .sub (at' "f" [.var 12])]⟩, some 1),
    (⟨at' "goal" [.var 13], [.sub (at' "e" [.var 13, .con (.str "a")]), .sub (at' "h" [])]⟩, some 2)], 14⟩, .done) := by decide +kernel

open Classical in
/-- data for `demo` exist -/
example : ∃ d : GTm → TV, Data ltOps demo.inputs d ∧ d (gsub (fun _ => g0) (at' "h" [])) = 1 :=
  ⟨fun x => (bval ltOps x.1).getD (if x = gsub (fun _ => g0) (at' "h" []) then 1 else 0), by
    intro x
    cases h : bval (W := TV) ltOps x.1 with
    | some b => simp only [h, Option.getD_some]
    | none =>
      intro hx
      simp only [h, Option.getD_none]
      rw [if_neg]
      intro e
      exact hx (at' "h" []) (by simp [demo]) _ e.symm, by
    have : bval (W := TV) ltOps (gsub (fun _ => g0) (at' "h" [])).1 = none := by simp [gsub, bval]
    simp [this]⟩

/-- a lost variable: `goal += f(X). f(Y) += 1.` gives `goal += 1 * inf` -/
example : (unfold 20 ltOps (7 : Nat) 4 ⟨[⟨at' "goal" [], [.sub (at' "f" [.var 0])]⟩, ⟨at' "f" [.var 1], [.val 1]⟩], []⟩
    ⟨[⟨at' "goal" [], [.sub (at' "f" [.var 0])]⟩, ⟨at' "f" [.var 1], [.val 1]⟩], []⟩ 0 0).map (·.1) =
    some [⟨at' "f" [.var 1], [.val 1]⟩, ⟨at' "goal" [], [.val 1, .val 7]⟩] := by decide +kernel

/-- an undecided comparison stays, a decided one goes, an equality binds -/
def demo2 : Prog Nat := ⟨[⟨at' "g" [.var 0], [.sub (at' "f" [.var 0]), .sub (at' "<" [.var 0, .con (.int 3)])]⟩,
  ⟨at' "g" [.var 0], [.sub (at' "f" [.var 0]), .sub (at' "<" [.con (.int 2), .con (.int 3)])]⟩,
  ⟨at' "g" [.var 0], [.sub (at' "=" [.var 0, .con (.int 3)]), .sub (at' "f" [.var 0])]⟩], []⟩
example : (unfold 20 ltOps 7 4 demo2 demo2 0 1).map (·.2.1.out) =
    some [(⟨at' "g" [.var 4], [.sub (at' "f" [.var 4]), .sub (at' "<" [.var 4, .con (.int 3)])]⟩, none)] := by decide +kernel
example : (unfold 20 ltOps 7 4 demo2 demo2 1 1).map (·.2.1.out) =
    some [(⟨at' "g" [.var 4], [.sub (at' "f" [.var 4]), .val 1]⟩, none)] := by decide +kernel
example : (unfold 20 ltOps 7 4 demo2 demo2 2 0).map (·.2.1.out) =
    some [(⟨at' "g" [.con (.int 3)], [.val 1, .sub (at' "f" [.con (.int 3)])]⟩, none)] := by decide +kernel
/-- inputs are refused -/
example : (unfold 20 ltOps .t 8 demo demo 0 0).map (·.2.2) = some assertion := by decide +kernel

end Examples

end Unfold
end Verif
