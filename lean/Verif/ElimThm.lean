/-
Property C38: eliminating a rule changes no item that is not an instance of its head.
-/
import Verif.Elim
import Verif.SemUpdate
import Verif.LinearizeThm

set_option linter.unusedSectionVars false
set_option linter.unusedSimpArgs false

namespace Verif
open Tm Heap
open Sem
open Solver (noHeap good_noHeap respects_noHeap)

namespace Elim
open Unfold (Prog freshR freshR_spec derefR isInput assertion contribAt contribAt_self contribAt_congr contribAt_add contribAt_zero
  subRule made contrib_made mem_rvars_sub derefR_evt Below isum_no_unifier)
open ProgUpdate (St update update_T BInv NoEmpty)
variable {W : Type} [CSemi W] [DecidableEq W]

/-! ### Spec -/

/-- some item is an instance of both -/
def Hit (s : WRule W) (q : Tm) : Prop := ∃ θ φ, gsub θ q = gsub φ s.head

open Classical in
/-- how many subgoals share an instance with the head of `s` -/
noncomputable def hits (s : WRule W) : List (Lit W) → Nat
  | [] => 0
  | .val _ :: b => hits s b
  | .sub q :: b => (if Hit s q then 1 else 0) + hits s b

/-- `w` with what the rule `s` adds to it -/
noncomputable def plus (s : WRule W) (w : GTm → W) : GTm → W := fun x => w x + contrib s w x

/-- the value functions that vanish outside the instances of the head -/
def On (s : WRule W) (u : GTm → W) : Prop := ∀ x, (∀ φ, gsub φ s.head ≠ x) → u x = 0

/-! ### One subgoal taking another value -/

/-- the sum over the subgoals in `R` of the contribution with that subgoal taking its value from `u` -/
noncomputable def posSum (head : Tm) : List (Lit W) → List (Lit W) → (GTm → W) → (GTm → W) → GTm → W
  | _, [], _, _, _ => 0
  | L, .val c :: R, v, u, x => posSum head (L ++ [.val c]) R v u x
  | L, .sub q :: R, v, u, x => contribAt head L q R v u x + posSum head (L ++ [.sub q]) R v u x

theorem posSum_zero {s : WRule W} {u : GTm → W} (hu : On s u) {head : Tm} (v : GTm → W) (x : GTm) : ∀ {R L : List (Lit W)}, hits s R = 0 →
    posSum head L R v u x = 0
  | [], _, _ => rfl
  | .val c :: R, L, h => posSum_zero hu v x (R := R) h
  | .sub q :: R, L, h => by
    have h1 : ¬ Hit s q := fun hq => by simp [hits, hq] at h
    have h2 : hits s R = 0 := by simp [hits, h1] at h; exact h
    simp only [posSum]
    rw [posSum_zero hu v x h2, add_zero, contribAt_congr (w := fun _ => 0), contribAt_zero]
    intro θ
    exact hu _ fun φ e => h1 ⟨θ, φ, e.symm⟩

theorem hits_zero {s : WRule W} : ∀ {b : List (Lit W)}, hits s b = 0 → ∀ q, Lit.sub q ∈ b → ¬ Hit s q
  | .val c :: b, h, q, hq => by
    simp only [List.mem_cons, reduceCtorEq, false_or] at hq
    exact hits_zero (b := b) h q hq
  | .sub q' :: b, h, q, hq => by
    have h1 : ¬ Hit s q' := fun hq => by simp [hits, hq] at h
    have h2 : hits s b = 0 := by simp [hits, h1] at h; exact h
    rcases List.mem_cons.1 hq with e | hq
    · cases e; exact h1
    · exact hits_zero h2 q hq

theorem bv_hits {s : WRule W} {u : GTm → W} (hu : On s u) (w : GTm → W) (θ : Nat → GTm) {b : List (Lit W)} (h : hits s b = 0) :
    bv (fun x => w x + u x) θ b = bv w θ b := by
  unfold bv
  congr 1
  refine List.map_congr_left fun l hl => ?_
  cases l with
  | val k => rfl
  | sub q =>
    simp only [lv]
    rw [hu _ fun φ e => hits_zero h q hl ⟨θ, φ, e.symm⟩, add_zero]

/-- with at most one subgoal concerned the rule is linear in that subgoal -/
theorem contrib_add {s : WRule W} {u : GTm → W} (hu : On s u) (head : Tm) (w : GTm → W) (x : GTm) : ∀ (R L : List (Lit W)), hits s L = 0 →
    hits s R ≤ 1 → contrib ⟨head, L ++ R⟩ (fun y => w y + u y) x = contrib ⟨head, L ++ R⟩ w x + posSum head L R w u x
  | [], L, hL, _ => by
    simp only [posSum, add_zero, List.append_nil]
    unfold contrib
    exact isum_congr fun a => by simp only [bv_hits hu w _ hL]
  | .val c :: R, L, hL, hR => by
    have hL' : hits s (L ++ [.val c]) = 0 := by
      clear hR
      induction L with
      | nil => rfl
      | cons l L ih => cases l with
        | val k => exact ih hL
        | sub q =>
          have h1 : ¬ Hit s q := fun hq => by simp [hits, hq] at hL
          have h2 : hits s L = 0 := by simp [hits, h1] at hL; exact hL
          simp [hits, h1, ih h2]
    have := contrib_add hu head w x R (L ++ [.val c]) hL' hR
    simpa [posSum] using this
  | .sub q :: R, L, hL, hR => by
    by_cases hq : Hit s q
    · have h2 : hits s R = 0 := by simp [hits, hq] at hR; exact hR
      simp only [posSum]
      rw [posSum_zero hu w x h2, add_zero, ← contribAt_self, ← contribAt_self, ← contribAt_add]
      unfold contribAt
      exact isum_congr fun a => by simp only [bv_hits hu w _ hL, bv_hits hu w _ h2]
    · have hL' : hits s (L ++ [.sub q]) = 0 := by
        clear hR
        induction L with
        | nil => simp [hits, hq]
        | cons l L ih => cases l with
          | val k => exact ih hL
          | sub q' =>
            have h1 : ¬ Hit s q' := fun hq => by simp [hits, hq] at hL
            have h2 : hits s L = 0 := by simp [hits, h1] at hL; exact hL
            simp [hits, h1, ih h2]
      have h2 : hits s R ≤ 1 := by simp [hits, hq] at hR; exact hR
      have := contrib_add hu head w x R (L ++ [.sub q]) hL' h2
      simp only [posSum]
      rw [contribAt_congr (w := fun _ => 0), contribAt_zero, zero_add]
      · simpa using this
      · intro θ
        exact hu _ fun φ e => hq ⟨θ, φ, e.symm⟩

theorem on_contrib (s : WRule W) (w : GTm → W) : On s (contrib s w) := fun x hx => contrib_zero hx

/-! ### Resolving a subgoal with a rule that shares no variables -/

open Classical in
theorem resolve_sum {head : Tm} {L : List (Lit W)} {q : Tm} {R : List (Lit W)} {s : WRule W}
    (hdis : Disjoint (rvars (⟨head, L ++ .sub q :: R⟩ : WRule W)) (rvars s)) (v : GTm → W) (x : GTm) :
    (isum fun a : Asg (rvars (⟨head, L ++ .sub q :: R⟩ : WRule W) ∪ rvars s) => if gsub (ext a) s.head = gsub (ext a) q then
      (if gsub (ext a) head = x then bv v (ext a) (L ++ .val 1 :: (s.body ++ R)) else 0) else 0) =
      contribAt head L q R v (contrib s v) x := by
  set Vr := rvars (⟨head, L ++ .sub q :: R⟩ : WRule W) with hVr
  have hq : vars q ⊆ Vr := by
    intro n hn
    simp only [hVr, rvars, bodyVars_append, bodyVars, litVars, Finset.mem_union]
    exact .inr (.inr (.inl hn))
  have hh : vars head ⊆ Vr := by
    intro n hn; simp only [hVr, rvars, Finset.mem_union]; exact .inl hn
  have hL : bodyVars L ⊆ Vr := by
    intro n hn
    simp only [hVr, rvars, bodyVars_append, bodyVars, litVars, Finset.mem_union]
    exact .inr (.inl hn)
  have hR : bodyVars R ⊆ Vr := by
    intro n hn
    simp only [hVr, rvars, bodyVars_append, bodyVars, litVars, Finset.mem_union]
    exact .inr (.inr (.inr hn))
  have hsh : vars s.head ⊆ rvars s := by intro n hn; simp only [rvars, Finset.mem_union]; exact .inl hn
  have hsb : bodyVars s.body ⊆ rvars s := by intro n hn; simp only [rvars, Finset.mem_union]; exact .inr hn
  have step : contribAt head L q R v (contrib s v) x = isum fun a : Asg Vr => isum fun b : Asg (rvars s) =>
      if gsub (ext b) s.head = gsub (ext a) q then
        (if gsub (ext a) head = x then bv v (ext a) L * bv v (ext b) s.body * bv v (ext a) R else 0) else 0 := by
    unfold contribAt contrib
    refine isum_congr fun a => ?_
    split
    · rw [mul_isum, isum_mul]
      refine isum_congr fun b => ?_
      split
      · rfl
      · simp
    · exact ((isum_congr fun b => by simp).trans isum_zero).symm
  rw [step, ← isum_union hdis]
  refine isum_congr fun c => ?_
  have c1 : ∀ n ∈ Vr, ext (cut Vr (ext c)) n = ext c n := fun n hn => ext_cut hn
  have c2 : ∀ n ∈ rvars s, ext (cut (rvars s) (ext c)) n = ext c n := fun n hn => ext_cut hn
  rw [gsub_congr (t := s.head) (fun n hn => c2 n (hsh hn)), gsub_congr (t := q) (fun n hn => c1 n (hq hn)),
    gsub_congr (t := head) (fun n hn => c1 n (hh hn)), bv_congr (b := L) (fun n hn => c1 n (hL hn)),
    bv_congr (b := R) (fun n hn => c1 n (hR hn)), bv_congr (b := s.body) (fun n hn => c2 n (hsb hn)), bv_append, bv_cons, bv_append]
  simp only [lv, one_mul, mul_assoc]

theorem contrib_setItem (t g : WRule W) (v : GTm → W) (x : GTm) :
    contrib (setItem infty t (rvars t ∪ rvars g)) v x = contrib (made infty t g) v x := by
  have : rvars t ∪ rvars g ⊆ rvars t ↔ rvars g ⊆ rvars t := ⟨fun h n hn => h (Finset.mem_union_right _ hn), fun h => Finset.union_subset (le_refl _) h⟩
  unfold setItem made
  by_cases h : rvars g ⊆ rvars t
  · rw [if_pos (this.2 h), if_pos h]
  · rw [if_neg (fun e => h (this.1 e)), if_neg h]
    by_cases h1 : (infty : W) = 1
    · rw [Unfold.contrib_val, h1, one_mul, if_neg (by simp)]
    · rw [if_pos h1]

/-- the state of the program being built -/
structure Ok (cv : Nat → Nat) (st : ES W) : Prop where
  inv : BInv cv st.p
  full : NoEmpty st.p.rules

theorem put_spec {cv : Nat → Nat} (hcv : Function.Injective cv) {dead : W → Bool} (hdead : ∀ c, dead c = true → c = 0) {st : ES W} (h : Ok cv st)
    (r : WRule W) : ∃ st', put cv dead st r = some st' ∧ Ok cv st' ∧ st'.n = st.n ∧ st.k ≤ st'.k ∧
      ∀ v x, T st'.p.rules v x = T st.p.rules v x + contrib r v x := by
  obtain ⟨p', h1, h2, h3⟩ := ProgUpdate.C19_no_error (fv := id) hcv Function.injective_id hdead h.inv h.full st.k r
  refine ⟨⟨p', st.k + (rvars r).card, st.n⟩, by simp only [put, h1, Option.map_some], ⟨h2, h3⟩, rfl, Nat.le_add_right _ _, fun v x => ?_⟩
  exact update_T hcv Function.injective_id hdead h.inv h1 v x

/-- the loop over unifiers at one subgoal -/
theorem elimAt_spec {cv : Nat → Nat} (hcv : Function.Injective cv) {dead : W → Bool} (hdead : ∀ c, dead c = true → c = 0)
    {head : Tm} {L : List (Lit W)} {q : Tm} {R : List (Lit W)} {s : WRule W} (hdis : Disjoint (rvars (⟨head, L ++ .sub q :: R⟩ : WRule W)) (rvars s))
    {st : ES W} (hst : Ok cv st) :
    ∃ st', Evt (fun f => unifyF f s.head q (elimAt f infty cv dead s head L q R) noHeap st = some (noHeap, st', .done)) ∧ Ok cv st' ∧
      st.k ≤ st'.k ∧ (st'.n = st.n + if hits s [.sub q] = 0 then 0 else 1) ∧
      ∀ v x, T st'.p.rules v x = T st.p.rules v x + contribAt head L q R v (contrib s v) x := by
  classical
  set Vr := rvars (⟨head, L ++ .sub q :: R⟩ : WRule W) with hVr
  have hq : vars q ⊆ Vr := by
    intro n hn
    simp only [hVr, rvars, bodyVars_append, bodyVars, litVars, Finset.mem_union]
    exact .inr (.inr (.inl hn))
  have hsh : vars s.head ⊆ rvars s := by intro n hn; simp only [rvars, Finset.mem_union]; exact .inl hn
  have hhit : hits s [.sub q] = 0 ↔ ¬ Hit s q := by
    by_cases hq : Hit s q <;> simp [hits, hq]
  obtain ⟨r, hs, he⟩ := unify_result good_noHeap s.head q
  cases r with
  | none =>
    have hno : ¬ Hit s q := by
      rintro ⟨θ, φ, e⟩
      cases hs with
      | fail hf =>
      have h1 : gsub (fun n => if n ∈ rvars s then φ n else θ n) s.head = gsub φ s.head := gsub_congr fun n hn => by simp [hsh hn]
      have h2 : gsub (fun n => if n ∈ rvars s then φ n else θ n) q = gsub θ q := gsub_congr fun n hn => by
        simp [Finset.disjoint_left.1 hdis (hq hn)]
      exact hf _ (respects_noHeap _) (Unfold.sub_ext_eq.1 (h1.trans (e.symm.trans h2.symm)))
    refine ⟨st, he.mono fun f e => ?_, hst, le_refl _, by rw [if_pos (hhit.2 hno), add_zero], fun v x => ?_⟩
    · rw [e]; simp [run]
    · rw [contribAt_congr (w := fun _ => 0), contribAt_zero, add_zero]
      intro θ
      exact on_contrib s v _ fun φ e => hno ⟨θ, φ, e.symm⟩
  | some bs =>
    have hspec := hs
    cases hs with
    | ok _ hg hr hn hd hv =>
    have hyes : Hit s q := by
      have heq : s.head.sub (res (bindAll noHeap bs)) = q.sub (res (bindAll noHeap bs)) := ((hr _).1 hg.respects_res).2
      refine ⟨fun n => gsub (fun _ => g0) (res (bindAll noHeap bs) n), fun n => gsub (fun _ => g0) (res (bindAll noHeap bs) n), ?_⟩
      rw [← Unfold.gsub_sub, ← Unfold.gsub_sub, heq]
    set σ := res (bindAll noHeap bs) with hσ
    set t : WRule W := ⟨head, L ++ .val 1 :: (s.body ++ R)⟩ with ht
    set g : WRule W := ⟨s.head, [.sub q]⟩ with hgd
    obtain ⟨st', p1, p2, p3, p4, p5⟩ := put_spec hcv hdead (st := ⟨st.p, st.k, st.n + 1⟩) ⟨hst.inv, hst.full⟩
      (setItem infty (subRule σ t) (rvars (subRule σ t) ∪ rvars (subRule σ g)))
    have hu : unbindAll bs (bindAll noHeap bs) = noHeap := unbindAll_bindAll hn fun p _ => rfl
    refine ⟨st', ?_, p2, p4, by rw [p3, if_neg (fun e => hhit.1 e hyes)], fun v x => ?_⟩
    · refine (he.and ((derefR_evt hg t).and (derefR_evt hg g))).mono fun f e => ?_
      rw [e.1]
      simp only [run, elimAt, ← ht, ← hgd, e.2.1, e.2.2, ← hσ, p1, hu]
    · rw [p5, contrib_setItem, ← resolve_sum hdis]
      congr 1
      rw [hσ]
      refine contrib_made (V := Vr ∪ rvars s) (fun n hn => Finset.mem_union_right _ (hsh hn)) (fun n hn => Finset.mem_union_left _ (hq hn)) hspec
        (t := t) (s := g) ?_ ?_ ?_ v x
      · intro n hn
        simp only [ht, rvars, bodyVars_append, bodyVars, litVars, Finset.empty_union, Finset.mem_union] at hn
        simp only [hVr, rvars, bodyVars_append, bodyVars, litVars, Finset.mem_union]
        tauto
      · intro n hn
        simp only [hgd, rvars, bodyVars, litVars, Finset.union_empty, Finset.mem_union] at hn
        rcases hn with hn | hn
        · exact Finset.mem_union_right _ (hsh hn)
        · exact Finset.mem_union_left _ (hq hn)
      · intro n hn hb
        have hself : n ∈ vars (res (bindAll noHeap bs) n) := by rw [res_unbound hb]; simp
        have : n ∈ rvars t ∨ n ∈ rvars g := by
          simp only [hVr, rvars, bodyVars_append, bodyVars, litVars, Finset.mem_union] at hn
          simp only [ht, hgd, rvars, bodyVars_append, bodyVars, litVars, Finset.empty_union, Finset.union_empty, Finset.mem_union]
          tauto
        rcases this with h | h
        · exact .inl (mem_rvars_sub.2 ⟨n, h, hself⟩)
        · exact .inr (mem_rvars_sub.2 ⟨n, h, hself⟩)

theorem hits_cons (s : WRule W) (q : Tm) (b : List (Lit W)) : hits s (.sub q :: b) = (if hits s [.sub q] = 0 then 0 else 1) + hits s b := by
  by_cases hq : Hit s q <;> simp [hits, hq]

/-- the loop over the subgoals -/
theorem elimBody_spec {cv : Nat → Nat} (hcv : Function.Injective cv) {dead : W → Bool} (hdead : ∀ c, dead c = true → c = 0)
    {head : Tm} {s : WRule W} : ∀ (R L : List (Lit W)) (st : ES W), Disjoint (rvars (⟨head, L ++ R⟩ : WRule W)) (rvars s) → Ok cv st →
    ∃ st', Evt (fun f => elimBody f infty cv dead s head L R st = some (st', .done)) ∧ Ok cv st' ∧ st.k ≤ st'.k ∧ st'.n = st.n + hits s R ∧
      ∀ v x, T st'.p.rules v x = T st.p.rules v x + posSum head L R v (contrib s v) x
  | [], L, st, _, hst => ⟨st, .of_all fun f => rfl, hst, le_refl _, rfl, fun v x => by simp [posSum]⟩
  | .val c :: R, L, st, hd, hst => by
    obtain ⟨st', h1, h2, h3, h4, h5⟩ := elimBody_spec hcv hdead R (L ++ [.val c]) st (by simpa using hd) hst
    exact ⟨st', h1.mono fun f e => by simp only [elimBody]; exact e, h2, h3, h4, h5⟩
  | .sub q :: R, L, st, hd, hst => by
    obtain ⟨st1, a1, a2, a3, a4, a5⟩ := elimAt_spec hcv hdead hd hst
    obtain ⟨st', h1, h2, h3, h4, h5⟩ := elimBody_spec hcv hdead R (L ++ [.sub q]) st1 (by simpa using hd) a2
    refine ⟨st', (a1.and h1).mono fun f e => ?_, h2, le_trans a3 h3, ?_, fun v x => ?_⟩
    · simp only [elimBody, e.1, e.2]
    · have := hits_cons s q R; omega
    · rw [h5, a5]; simp only [posSum]; ring

/-! ### The loop over the rules -/

theorem gsub_ren (ρ : Nat → Nat) (θ : Nat → GTm) (t : Tm) : gsub θ (t.sub fun n => .var (ρ n)) = gsub (fun n => θ (ρ n)) t := by
  rw [Unfold.gsub_sub]
  exact gsub_congr fun n _ => Subtype.ext (by simp [gsub])

theorem hit_ren {s : WRule W} {ρ : Nat → Nat} {V : Finset Nat} (hρ : Set.InjOn ρ V) {q : Tm} (hq : vars q ⊆ V) :
    Hit s (q.sub fun n => .var (ρ n)) ↔ Hit s q := by
  constructor
  · rintro ⟨θ, φ, e⟩
    exact ⟨_, φ, (gsub_ren ρ θ q).symm.trans e⟩
  · rintro ⟨θ, φ, e⟩
    refine ⟨fun m => θ (Function.invFunOn ρ V m), φ, (gsub_ren ρ _ q).trans (Eq.trans (gsub_congr fun n hn => ?_) e)⟩
    exact congrArg θ (hρ.leftInvOn_invFunOn (hq hn))

theorem hits_ren {s : WRule W} {ρ : Nat → Nat} {V : Finset Nat} (hρ : Set.InjOn ρ V) : ∀ {b : List (Lit W)}, bodyVars b ⊆ V →
    hits s (b.map (renLit ρ)) = hits s b
  | [], _ => rfl
  | .val c :: b, h => by
    simp only [List.map_cons, renLit, hits]
    exact hits_ren hρ fun n hn => h (by simp [bodyVars, hn])
  | .sub q :: b, h => by
    simp only [List.map_cons, renLit, hits]
    rw [hits_ren hρ (b := b) fun n hn => h (by simp [bodyVars, hn])]
    have := hit_ren (s := s) hρ (q := q) fun n hn => h (by simp [bodyVars, litVars, hn])
    by_cases hq : Hit s q
    · rw [if_pos hq, if_pos (this.2 hq)]
    · rw [if_neg hq, if_neg (fun e => hq (this.1 e))]

section
variable {cv : Nat → Nat} (hcv : Function.Injective cv) {dead : W → Bool} (hdead : ∀ c, dead c = true → c = 0) {s : WRule W}
include hcv hdead

/-- a rule other than the eliminated one -/
theorem rule_ok {r : WRule W} (hdis : Disjoint (rvars r) (rvars s)) (h1 : hits s r.body ≤ 1) {st : ES W} (hst : Ok cv st) :
    ∃ st', Evt (fun f => ∀ rs, elimRules f infty cv dead s ((r, false) :: rs) st = elimRules f infty cv dead s rs st') ∧ Ok cv st' ∧
      st.k ≤ st'.k ∧ ∀ v x, T st'.p.rules v x = T st.p.rules v x + contrib r (plus s v) x := by
  obtain ⟨st1, a1, a2, a3, a4, a5⟩ := elimBody_spec hcv hdead r.body [] ⟨st.p, st.k, 0⟩ (head := r.head) (s := s) (by simpa using hdis) ⟨hst.inv, hst.full⟩
  obtain ⟨st2, b1, b2, b3, b4, b5⟩ := put_spec hcv hdead a2 r
  have hn : ¬ 1 < st1.n := by simp only [a4]; omega
  refine ⟨st2, a1.mono fun f e rs => ?_, b2, le_trans a3 b4, fun v x => ?_⟩
  · simp [elimRules, e, hn, b1]
  · have := contrib_add (on_contrib s v) r.head v x r.body [] rfl h1
    rw [b5, a5]
    simp only [List.nil_append] at this
    show _ = _ + contrib r (fun y => v y + contrib s v y) x
    rw [show r = (⟨r.head, r.body⟩ : WRule W) from rfl, this]
    ring

/-- the eliminated rule -/
theorem self_ok {st : ES W} (hk : Below st.k s) (h1 : hits s s.body ≤ 1) (hst : Ok cv st) :
    ∃ st' head body, Evt (fun f => ∀ rs, elimRules f infty cv dead s ((s, true) :: rs) st = elimRules f infty cv dead s rs st') ∧ Ok cv st' ∧
      st.k ≤ st'.k ∧ (∀ v x, T st'.p.rules v x = T st.p.rules v x + posSum head [] body v (contrib s v) x) ∧
      (∀ w u, On s u → ∀ x, contrib s (fun y => w y + u y) x = contrib s w x + posSum head [] body w u x) ∧ hits s body = hits s s.body := by
  obtain ⟨ρ, f1, f2, f3, f4⟩ := freshR_spec st.k s
  have hd : Disjoint (rvars (renRule ρ s)) (rvars s) := by
    rw [rvars_renRule, Finset.disjoint_left]
    intro n hn hn'
    obtain ⟨m, hm, rfl⟩ := Finset.mem_image.1 hn
    exact absurd (hk _ hn') (not_lt.2 (f3 m hm).1)
  have hh : hits s (renRule ρ s).body = hits s s.body := hits_ren f2 (fun n hn => Finset.mem_union_right _ hn)
  obtain ⟨st1, a1, a2, a3, a4, a5⟩ := elimBody_spec hcv hdead (renRule ρ s).body [] ⟨st.p, (freshR st.k s).2, 0⟩ (head := (renRule ρ s).head) (s := s)
    (by simpa using hd) ⟨hst.inv, hst.full⟩
  have hn : ¬ 1 < st1.n := by simp only [a4, hh]; omega
  refine ⟨st1, _, _, a1.mono fun f e rs => ?_, a2, le_trans f4 a3, a5, fun w u hu x => ?_, hh⟩
  · rw [← f1] at e
    simp [elimRules, e, hn]
  · have := contrib_add hu (renRule ρ s).head w x (renRule ρ s).body [] rfl (by rw [hh]; exact h1)
    simp only [List.nil_append] at this
    rw [← contrib_ren f2, ← contrib_ren f2]
    exact this

/-- a rule with two subgoals that share an instance with the head -/
theorem rule_bad {r : WRule W} {b : Bool} (hb : b = true → r = s) (hdis : b = false → Disjoint (rvars r) (rvars s)) (h1 : 1 < hits s r.body)
    {st : ES W} (hk : Below st.k s) (hst : Ok cv st) :
    ∃ st', Evt (fun f => ∀ rs, elimRules f infty cv dead s ((r, b) :: rs) st = some (st', assertion)) := by
  cases b with
  | false =>
    obtain ⟨st1, a1, a2, a3, a4, a5⟩ := elimBody_spec hcv hdead r.body [] ⟨st.p, st.k, 0⟩ (head := r.head) (s := s) (by simpa using hdis rfl)
      ⟨hst.inv, hst.full⟩
    have hn : 1 < st1.n := by rw [a4]; omega
    exact ⟨st1, a1.mono fun f e rs => by simp [elimRules, e, hn]⟩
  | true =>
    obtain rfl := hb rfl
    obtain ⟨ρ, f1, f2, f3, f4⟩ := freshR_spec st.k r
    have hd : Disjoint (rvars (renRule ρ r)) (rvars r) := by
      rw [rvars_renRule, Finset.disjoint_left]
      intro n hn hn'
      obtain ⟨m, hm, rfl⟩ := Finset.mem_image.1 hn
      exact absurd (hk _ hn') (not_lt.2 (f3 m hm).1)
    have hh : hits r (renRule ρ r).body = hits r r.body := hits_ren f2 (fun n hn => Finset.mem_union_right _ hn)
    obtain ⟨st1, a1, a2, a3, a4, a5⟩ := elimBody_spec hcv hdead (renRule ρ r).body [] ⟨st.p, (freshR st.k r).2, 0⟩ (head := (renRule ρ r).head) (s := r)
      (by simpa using hd) ⟨hst.inv, hst.full⟩
    have hn : 1 < st1.n := by rw [a4, hh]; omega
    refine ⟨st1, a1.mono fun f e rs => ?_⟩
    rw [← f1] at e
    simp [elimRules, e, hn]

theorem rules_ok : ∀ {A : List (WRule W)} {st : ES W}, (∀ r ∈ A, Disjoint (rvars r) (rvars s)) → (∀ r ∈ A, hits s r.body ≤ 1) → Ok cv st →
    ∃ st', Evt (fun f => ∀ rs, elimRules f infty cv dead s (A.map (·, false) ++ rs) st = elimRules f infty cv dead s rs st') ∧ Ok cv st' ∧
      st.k ≤ st'.k ∧ ∀ v x, T st'.p.rules v x = T st.p.rules v x + T A (plus s v) x
  | [], st, _, _, hst => ⟨st, .of_all fun f rs => rfl, hst, le_refl _, fun v x => by simp [T_nil]⟩
  | r :: A, st, hd, h1, hst => by
    obtain ⟨st1, a1, a2, a3, a4⟩ := rule_ok hcv hdead (hd r (by simp)) (h1 r (by simp)) hst
    obtain ⟨st2, b1, b2, b3, b4⟩ := rules_ok (A := A) (fun r' h => hd r' (by simp [h])) (fun r' h => h1 r' (by simp [h])) a2
    refine ⟨st2, (a1.and b1).mono fun f e rs => ?_, b2, le_trans a3 b3, fun v x => ?_⟩
    · rw [← e.2, ← e.1]; rfl
    · rw [b4, a4, T_cons]; ring

end

/-! ### Property C38 -/

/-- what is assumed: `p.rules[i]` shares no variable with another rule, does not feed an output and all its variables are older than `k` -/
structure Pre (outs : Option (List Tm)) (k : Nat) (A : List (WRule W)) (s : WRule W) (B : List (WRule W)) : Prop where
  below : Below k s
  apart : ∀ r ∈ A ++ B, Disjoint (rvars r) (rvars s)
  inner : ∀ t ∈ outs.getD [], ∀ θ φ, gsub θ t ≠ gsub φ s.head

theorem flags (A : List (WRule W)) (s : WRule W) (B : List (WRule W)) :
    (A ++ s :: B).zipIdx.map (fun rj => (rj.1, rj.2 == A.length)) = A.map (·, false) ++ (s, true) :: B.map (·, false) := by
  have h1 : ∀ (A : List (WRule W)) n m, n + A.length ≤ m → (A.zipIdx n).map (fun rj => (rj.1, rj.2 == m)) = A.map (·, false) := by
    intro A
    induction A with
    | nil => intros; rfl
    | cons a A ih =>
      intro n m h
      simp only [List.length_cons] at h
      simp only [List.zipIdx_cons, List.map_cons]
      rw [ih _ _ (by omega)]
      congr 2
      simp; omega
  have h2 : ∀ (A : List (WRule W)) n m, m < n → (A.zipIdx n).map (fun rj => (rj.1, rj.2 == m)) = A.map (·, false) := by
    intro A
    induction A with
    | nil => intros; rfl
    | cons a A ih =>
      intro n m h
      simp only [List.zipIdx_cons, List.map_cons]
      rw [ih _ _ (by omega)]
      congr 2
      simp; omega
  rw [List.zipIdx_append, List.map_append, h1 _ _ _ (by omega)]
  congr 1
  simp only [List.zipIdx_cons, List.map_cons]
  rw [h2 _ _ _ (by omega)]
  simp

section
variable {cv : Nat → Nat} (hcv : Function.Injective cv) {dead : W → Bool} (hdead : ∀ c, dead c = true → c = 0)
include hcv hdead

theorem linElim_spec {outs : Option (List Tm)} {k : Nat} {A : List (WRule W)} {s : WRule W} {B : List (WRule W)} (h : Pre outs k A s B)
    (hl : ∀ r ∈ A ++ s :: B, hits s r.body ≤ 1) :
    ∃ st head body, Evt (fun f => linElim f infty cv dead outs k (A ++ s :: B) A.length = some (st, .done)) ∧
      (∀ w x, T st.p.rules w x = T (A ++ B) (plus s w) x + posSum head [] body w (contrib s w) x) ∧
      (∀ w u, On s u → ∀ x, contrib s (fun y => w y + u y) x = contrib s w x + posSum head [] body w u x) ∧ hits s body = hits s s.body := by
  have ok0 : Ok cv (⟨⟨[], none⟩, k, 0⟩ : ES W) := ⟨fun d hd => by simp at hd, fun r hr => by simp at hr⟩
  obtain ⟨st1, a1, a2, a3, a4⟩ := rules_ok hcv hdead (s := s) (A := A) (fun r hr => h.apart r (by simp [hr])) (fun r hr => hl r (by simp [hr])) ok0
  obtain ⟨st2, hd, b, b1, b2, b3, b4, b5, b6⟩ := self_ok hcv hdead (s := s) (fun n hn => lt_of_lt_of_le (h.below n hn) a3) (hl s (by simp)) a2
  obtain ⟨st3, c1, c2, c3, c4⟩ := rules_ok hcv hdead (s := s) (A := B) (fun r hr => h.apart r (by simp [hr])) (fun r hr => hl r (by simp [hr])) b2
  refine ⟨st3, hd, b, ((Unfold.isInput_evt h.inner).and (a1.and (b1.and c1))).mono fun f e => ?_, fun w x => ?_, b5, b6⟩
  · have e3 := e.2.2.2 []
    simp only [List.append_nil] at e3
    simp only [linElim, List.getElem?_append_right (le_refl _), Nat.sub_self, List.getElem?_cons_zero, e.1, flags]
    rw [e.2.1, e.2.2.1, e3]
    rfl
  · rw [c4, b4, a4, T_append]
    simp only [T_nil]
    ring

/-- **C38 (step).**  One step of the new program, plus what the eliminated rule adds, is one step of the program on the values with
what the eliminated rule adds. -/
theorem C38_step {outs : Option (List Tm)} {k : Nat} {A : List (WRule W)} {s : WRule W} {B : List (WRule W)} (h : Pre outs k A s B)
    (hl : ∀ r ∈ A ++ s :: B, hits s r.body ≤ 1) :
    ∃ st, Evt (fun f => linElim f infty cv dead outs k (A ++ s :: B) A.length = some (st, .done)) ∧
      ∀ w x, T st.p.rules w x + contrib s w x = T (A ++ s :: B) (plus s w) x := by
  obtain ⟨st, hd, b, h1, h2, h3, _⟩ := linElim_spec hcv hdead h hl
  refine ⟨st, h1, fun w x => ?_⟩
  have h4 : contrib s (plus s w) x = _ := h3 w _ (on_contrib s w) x
  rw [T_append, T_cons, h4, h2, T_append]
  ring

/-- **C38.**  From a solution of the new program, adding what the eliminated rule contributes gives a solution of the
program; the two agree on every item that is not an instance of the head of the eliminated rule. -/
theorem C38_solution {outs : Option (List Tm)} {k : Nat} {A : List (WRule W)} {s : WRule W} {B : List (WRule W)} (h : Pre outs k A s B)
    (hl : ∀ r ∈ A ++ s :: B, hits s r.body ≤ 1) :
    ∃ st, Evt (fun f => linElim f infty cv dead outs k (A ++ s :: B) A.length = some (st, .done)) ∧
      ∀ d w, Sol st.p.rules d w → ∃ v, Sol (A ++ s :: B) d v ∧ ∀ x, (∀ φ, gsub φ s.head ≠ x) → v x = w x := by
  obtain ⟨st, h1, h2⟩ := C38_step hcv hdead h hl
  refine ⟨st, h1, fun d w hw => ⟨plus s w, fun x => ?_, fun x hx => ?_⟩⟩
  · rw [← h2, ← add_assoc, ← hw x]; rfl
  · show w x + contrib s w x = w x
    rw [on_contrib s w x hx, add_zero]

/-- **C38 (no self-recursion).**  If the eliminated rule does not use instances of its own head then every solution of the
program comes from one of the new program in this way. -/
theorem C38_converse {outs : Option (List Tm)} {k : Nat} {A : List (WRule W)} {s : WRule W} {B : List (WRule W)} (h : Pre outs k A s B)
    (hl : ∀ r ∈ A ++ B, hits s r.body ≤ 1) (hs : hits s s.body = 0) :
    ∃ st, Evt (fun f => linElim f infty cv dead outs k (A ++ s :: B) A.length = some (st, .done)) ∧
      ∀ d v, Sol (A ++ s :: B) d v → ∃ w, Sol st.p.rules d w ∧ ∀ x, (∀ φ, gsub φ s.head ≠ x) → w x = v x := by
  have hl' : ∀ r ∈ A ++ s :: B, hits s r.body ≤ 1 := by
    intro r hr
    simp only [List.mem_append, List.mem_cons] at hr
    rcases hr with hr | rfl | hr
    · exact hl r (by simp [hr])
    · omega
    · exact hl r (by simp [hr])
  have hS : ∀ w u, On s u → ∀ x, contrib s (fun y => w y + u y) x = contrib s w x := by
    intro w u hu x
    unfold contrib
    exact isum_congr fun a => by rw [bv_hits hu w _ hs]
  obtain ⟨st, hd, b, h1, h2, h3, h4⟩ := linElim_spec hcv hdead h hl'
  refine ⟨st, h1, fun d v hv => ?_⟩
  -- the other rules' part of `v`
  have hvw : (fun x => (d x + T (A ++ B) v x) + contrib s v x) = v := by
    funext x
    conv_rhs => rw [hv x, T_append, T_cons]
    rw [T_append]; ring
  have hSw : contrib s (fun x => d x + T (A ++ B) v x) = contrib s v := by
    funext x
    rw [← hS _ _ (on_contrib s v), hvw]
  have hpl : plus s (fun x => d x + T (A ++ B) v x) = v := by
    unfold plus; rw [hSw]; exact hvw
  -- the eliminated rule is not used in itself
  have hD : ∀ w x, T st.p.rules w x = T (A ++ B) (plus s w) x := by
    intro w x
    rw [h2, posSum_zero (on_contrib s w) w x (h4.trans hs), add_zero]
  refine ⟨fun x => d x + T (A ++ B) v x, fun x => ?_, fun x hx => ?_⟩
  · rw [hD, hpl]
  · show d x + T (A ++ B) v x = v x
    rw [hv x, T_append, T_append, T_cons, on_contrib s v x hx, zero_add]

/-- **C38 (refusals).**  A rule that feeds an output, or that is used twice in one body, is not eliminated. -/
theorem C38_twice_raises {outs : Option (List Tm)} {k : Nat} {A : List (WRule W)} {s : WRule W} {B : List (WRule W)} (h : Pre outs k A s B)
    (hl : ∃ r ∈ A ++ s :: B, 1 < hits s r.body) :
    ∃ st, Evt (fun f => linElim f infty cv dead outs k (A ++ s :: B) A.length = some (st, assertion)) := by
  have ok0 : Ok cv (⟨⟨[], none⟩, k, 0⟩ : ES W) := ⟨fun d hd => by simp at hd, fun r hr => by simp at hr⟩
  have gen : ∀ (rs : List (WRule W × Bool)) (st : ES W), (∀ p ∈ rs, p.2 = true → p.1 = s) → (∀ p ∈ rs, p.2 = false → Disjoint (rvars p.1) (rvars s)) →
      Below st.k s → Ok cv st → (∃ p ∈ rs, 1 < hits s p.1.body) → ∃ st', Evt (fun f => elimRules f infty cv dead s rs st = some (st', assertion)) := by
    intro rs
    induction rs with
    | nil => rintro st _ _ _ _ ⟨p, hp, _⟩; simp at hp
    | cons p rs ih =>
      rintro st h1 h2 h3 h4 h5
      by_cases hb : 1 < hits s p.1.body
      · obtain ⟨st', e⟩ := rule_bad hcv hdead (r := p.1) (b := p.2) (h1 p (by simp)) (h2 p (by simp)) hb h3 h4
        exact ⟨st', e.mono fun f e => e rs⟩
      · have h5' : ∃ p ∈ rs, 1 < hits s p.1.body := by
          obtain ⟨p', hp', h⟩ := h5
          rcases List.mem_cons.1 hp' with rfl | hp'
          · exact absurd h hb
          · exact ⟨p', hp', h⟩
        have : ∃ st1, Evt (fun f => elimRules f infty cv dead s (p :: rs) st = elimRules f infty cv dead s rs st1) ∧ Ok cv st1 ∧ st.k ≤ st1.k := by
          obtain ⟨r, b⟩ := p
          cases b with
          | false =>
            obtain ⟨st1, a1, a2, a3, _⟩ := rule_ok hcv hdead (h2 (r, false) (by simp) rfl) (not_lt.1 hb) h4
            exact ⟨st1, a1.mono fun f e => e rs, a2, a3⟩
          | true =>
            obtain rfl : r = s := h1 (r, true) (by simp) rfl
            obtain ⟨st1, _, _, a1, a2, a3, _⟩ := self_ok hcv hdead h3 (not_lt.1 hb) h4
            exact ⟨st1, a1.mono fun f e => e rs, a2, a3⟩
        obtain ⟨st1, a1, a2, a3⟩ := this
        obtain ⟨st', e⟩ := ih st1 (fun p hp => h1 p (by simp [hp])) (fun p hp => h2 p (by simp [hp])) (fun n hn => lt_of_lt_of_le (h3 n hn) a3) a2 h5'
        exact ⟨st', (a1.and e).mono fun f e => e.1.trans e.2⟩
  obtain ⟨st', e⟩ := gen (A.map (·, false) ++ (s, true) :: B.map (·, false)) ⟨⟨[], none⟩, k, 0⟩
    (by
      intro p hp hb
      simp only [List.mem_append, List.mem_map, List.mem_cons] at hp
      rcases hp with ⟨r, _, rfl⟩ | rfl | ⟨r, _, rfl⟩ <;> simp at hb ⊢)
    (by
      intro p hp hb
      simp only [List.mem_append, List.mem_map, List.mem_cons] at hp
      rcases hp with ⟨r, hr, rfl⟩ | rfl | ⟨r, hr, rfl⟩
      · exact h.apart r (by simp [hr])
      · simp at hb
      · exact h.apart r (by simp [hr]))
    h.below ok0
    (by
      obtain ⟨r, hr, h⟩ := hl
      simp only [List.mem_append, List.mem_cons] at hr
      rcases hr with hr | rfl | hr
      · exact ⟨(r, false), by simp [hr], h⟩
      · exact ⟨(r, true), by simp, h⟩
      · exact ⟨(r, false), by simp [hr], h⟩)
  refine ⟨st', ((Unfold.isInput_evt h.inner).and e).mono fun f e => ?_⟩
  simp only [linElim, List.getElem?_append_right (le_refl _), Nat.sub_self, List.getElem?_cons_zero, e.1, flags]
  exact e.2

end

section least
variable {W : Type} [OSemi W] [DecidableEq W] {cv : Nat → Nat} (hcv : Function.Injective cv) {dead : W → Bool} (hdead : ∀ c, dead c = true → c = 0)

theorem posSum_mono {v v' u : GTm → W} (hv : ∀ x, v x ≤ v' x) {head : Tm} (x : GTm) : ∀ (R L : List (Lit W)),
    posSum head L R v u x ≤ posSum head L R v' u x
  | [], _ => le_refl _
  | .val c :: R, L => posSum_mono hv x R _
  | .sub q :: R, L => OSemi.add_le (Unfold.contribAt_mono hv (fun _ => le_refl _) x) (posSum_mono hv x R _)

include hcv hdead

/-- **C38 (rounds).**  Naive evaluation of the new program, with what the eliminated rule adds, is never behind naive
evaluation of the program and never more than twice as fast. -/
theorem C38_rounds {outs : Option (List Tm)} {k : Nat} {A : List (WRule W)} {s : WRule W} {B : List (WRule W)} (h : Pre outs k A s B)
    (hl : ∀ r ∈ A ++ s :: B, hits s r.body ≤ 1) :
    ∃ st, Evt (fun f => linElim f infty cv dead outs k (A ++ s :: B) A.length = some (st, .done)) ∧
      ∀ d n x, rounds (A ++ s :: B) d n x ≤ plus s (rounds st.p.rules d n) x ∧
        plus s (rounds st.p.rules d n) x ≤ rounds (A ++ s :: B) d (2 * n + 1) x := by
  obtain ⟨st, hd, b, h1, h2, h3, _⟩ := linElim_spec hcv hdead h hl
  have step : ∀ w x, T st.p.rules w x + contrib s w x = T (A ++ s :: B) (plus s w) x := by
    intro w x
    have h4 : contrib s (plus s w) x = _ := h3 w _ (on_contrib s w) x
    rw [T_append, T_cons, h4, h2, T_append]
    ring
  refine ⟨st, h1, fun d n => ?_⟩
  have lo : ∀ n x, rounds (A ++ s :: B) d n x ≤ plus s (rounds st.p.rules d n) x := by
    intro n
    induction n with
    | zero => intro x; exact OSemi.zero_le' _
    | succ n ih =>
      intro x
      refine le_trans (OSemi.add_le (le_refl (d x)) (T_mono ih _ x)) ?_
      rw [← step, ← add_assoc]
      exact OSemi.add_le (le_refl _) (contrib_mono (rounds_succ _ _ _) s x)
  have hi : ∀ n x, plus s (rounds st.p.rules d n) x ≤ rounds (A ++ s :: B) d (2 * n + 1) x := by
    intro n
    induction n with
    | zero =>
      intro x
      show 0 + contrib s (fun _ => 0) x ≤ d x + T (A ++ s :: B) (fun _ => 0) x
      rw [zero_add, T_append, T_cons]
      have z1 : (0 : W) + (0 + (contrib s (fun _ => 0) x + 0)) ≤ d x + (T A (fun _ => 0) x + (contrib s (fun _ => 0) x + T B (fun _ => 0) x)) :=
        OSemi.add_le (OSemi.zero_le' _) (OSemi.add_le (OSemi.zero_le' _) (OSemi.add_le (le_refl _) (OSemi.zero_le' _)))
      simpa using z1
    | succ n ih =>
      set w := rounds st.p.rules d n with hw
      set z := rounds st.p.rules d (n + 1) with hz
      have hwz : ∀ x, w x ≤ z x := rounds_succ _ _ _
      -- `z` with what the rule adds to `w` is a step of the program
      have e1 : ∀ x, z x + contrib s w x ≤ rounds (A ++ s :: B) d (2 * n + 1 + 1) x := by
        intro x
        show (d x + T st.p.rules w x) + contrib s w x ≤ d x + T (A ++ s :: B) (rounds (A ++ s :: B) d (2 * n + 1)) x
        rw [add_assoc, step]
        exact OSemi.add_le (le_refl _) (T_mono ih _ x)
      intro x
      show z x + contrib s z x ≤ d x + T (A ++ s :: B) (rounds (A ++ s :: B) d (2 * n + 1 + 1)) x
      have e2 : z x = d x + (T (A ++ B) (plus s w) x + posSum hd [] b w (contrib s w) x) := by rw [← h2]; rfl
      have e3 : posSum hd [] b w (contrib s w) x + contrib s z x ≤ contrib s (rounds (A ++ s :: B) d (2 * n + 1 + 1)) x := by
        refine le_trans (OSemi.add_le (posSum_mono hwz x _ _) (le_refl _)) ?_
        rw [add_comm, ← h3 z _ (on_contrib s w)]
        exact contrib_mono e1 s x
      have e4 : ∀ x, plus s w x ≤ rounds (A ++ s :: B) d (2 * n + 1 + 1) x := fun x => le_trans (ih x) (rounds_succ _ _ _ x)
      have e5 := OSemi.add_le (le_refl (d x)) (OSemi.add_le (T_mono e4 (A ++ B) x) e3)
      refine le_trans (le_of_eq ?_) (le_trans e5 (le_of_eq ?_))
      · rw [e2]; ring
      · rw [T_append, T_append, T_cons]; ring
  exact fun x => ⟨lo n x, hi n x⟩

/-- **C38 (least solution).**  Off the instances of the eliminated head the rounds of the two programs have the same upper
bounds, so the same limit. -/
theorem C38_least {outs : Option (List Tm)} {k : Nat} {A : List (WRule W)} {s : WRule W} {B : List (WRule W)} (h : Pre outs k A s B)
    (hl : ∀ r ∈ A ++ s :: B, hits s r.body ≤ 1) :
    ∃ st, Evt (fun f => linElim f infty cv dead outs k (A ++ s :: B) A.length = some (st, .done)) ∧
      ∀ d x, (∀ φ, gsub φ s.head ≠ x) → ∀ b, (∀ n, rounds (A ++ s :: B) d n x ≤ b) ↔ ∀ n, rounds st.p.rules d n x ≤ b := by
  obtain ⟨st, h1, h2⟩ := C38_rounds hcv hdead h hl
  have e : ∀ d x, (∀ φ, gsub φ s.head ≠ x) → ∀ n, plus s (rounds st.p.rules d n) x = rounds st.p.rules d n x := by
    intro d x hx n
    show _ + contrib s _ x = _
    rw [on_contrib s _ x hx, add_zero]
  refine ⟨st, h1, fun d x hx b => ⟨fun hb n => ?_, fun hb n => ?_⟩⟩
  · rw [← e d x hx]; exact le_trans (h2 d n x).2 (hb _)
  · refine le_trans (h2 d n x).1 ?_
    rw [e d x hx]; exact hb n

end least

/-- **C38 (refusals).**  A rule whose head unifies with a declared output is not eliminated. -/
theorem C38_output_raises {inf : W} {cv : Nat → Nat} {dead : W → Bool} {outs : List Tm} {k i : Nat} {rules : List (WRule W)} {s : WRule W}
    (hs : rules[i]? = some s) (ho : ∃ t ∈ outs, ∃ θ, t.sub θ = s.head.sub θ) :
    ∃ st, Evt (fun f => linElim f inf cv dead (some outs) k rules i = some (st, assertion)) := by
  have key : ∀ ts : List Tm, (∃ t ∈ ts, ∃ θ, t.sub θ = s.head.sub θ) → Evt (fun f => isInput f s.head noHeap ts = some true) := by
    intro ts
    induction ts with
    | nil => rintro ⟨t, ht, _⟩; simp at ht
    | cons t ts ih =>
      intro h
      obtain ⟨r', hs, he⟩ := unify_result good_noHeap t s.head
      cases r' with
      | some bs => exact he.mono fun f e => by simp only [isInput, unifiesF, e, run, Option.map_some]
      | none =>
        cases hs with
        | fail hf =>
        have : ∃ t ∈ ts, ∃ θ, t.sub θ = s.head.sub θ := by
          obtain ⟨t', ht', θ, e⟩ := h
          rcases List.mem_cons.1 ht' with rfl | h'
          · exact absurd e (hf θ (respects_noHeap θ))
          · exact ⟨t', h', θ, e⟩
        exact (he.and (ih this)).mono fun f e => by simp only [isInput, unifiesF, e.1, run, Option.map_some, e.2]
  exact ⟨⟨⟨[], none⟩, k, 0⟩, (key outs ho).mono fun f e => by simp only [linElim, hs, Option.getD_some, e]⟩

section Examples
open Unfold (at')

/-- `goal += f(X) * h(X). f(Y) += g(Y,Z) * f(Z). f(U) += e(U).` -/
def demoA : List (WRule TV) := [⟨at' "goal" [], [.sub (at' "f" [.var 0]), .sub (at' "h" [.var 0])]⟩]
def demoS : WRule TV := ⟨at' "f" [.var 1], [.sub (at' "g" [.var 1, .var 2]), .sub (at' "f" [.var 2])]⟩
def demoB : List (WRule TV) := [⟨at' "f" [.var 3], [.sub (at' "e" [.var 3])]⟩]

/-- eliminating the recursive rule: `goal += g(X,Z) * f(Z) * h(X). goal += f(X) * h(X). f(Y) += g(Y,Z) * g(Z,Z') * f(Z'). f(U) += e(U).` -/
example : (linElim 20 .t id (· == .f) (some [at' "goal" []]) 4 (demoA ++ demoS :: demoB) 1).map (fun o => (o.1.p.rules, o.2)) =
    some ([⟨at' "goal" [], [.sub (at' "g" [.var 4, .var 5]), .sub (at' "f" [.var 5]), .sub (at' "h" [.var 4])]⟩,
      ⟨at' "goal" [], [.sub (at' "f" [.var 6]), .sub (at' "h" [.var 6])]⟩,
      ⟨at' "f" [.var 9], [.sub (at' "g" [.var 9, .var 10]), .sub (at' "g" [.var 10, .var 11]), .sub (at' "f" [.var 11])]⟩,
      ⟨at' "f" [.var 12], [.sub (at' "e" [.var 12])]⟩], .done) := by decide +kernel

theorem demo_pre : Pre (some [at' "goal" []]) 4 demoA demoS demoB where
  below := by intro n hn; revert n; decide
  apart := by
    intro r hr
    simp only [demoA, demoB, List.cons_append, List.nil_append, List.mem_cons, List.not_mem_nil, or_false] at hr
    rcases hr with rfl | rfl <;> decide
  inner := by
    intro t ht θ φ h
    simp only [Option.getD_some, List.mem_singleton] at ht
    subst ht
    have := congrArg Subtype.val h
    simp [gsub, demoS] at this

theorem not_hit {s : WRule TV} {f g : String} {as bs : List Tm} (hs : s.head = at' g bs) (h : f ≠ g) : ¬ Hit s (at' f as) := by
  rintro ⟨θ, φ, e⟩
  have := congrArg Subtype.val e
  simp [gsub, hs, h] at this

theorem demo_linear : ∀ r ∈ demoA ++ demoS :: demoB, hits demoS r.body ≤ 1 := by
  intro r hr
  have h1 : ∀ f as, f ≠ "f" → ¬ Hit demoS (at' f as) := fun f as h => not_hit rfl h
  simp only [demoA, demoB, List.cons_append, List.nil_append, List.mem_cons, List.not_mem_nil, or_false] at hr
  rcases hr with rfl | rfl | rfl
  · simp only [hits, h1 "h" _ (by decide)]; split <;> simp
  · have : demoS.body = [.sub (at' "g" [.var 1, .var 2]), .sub (at' "f" [.var 2])] := rfl
    simp only [this, hits, h1 "g" _ (by decide), if_false]; split <;> simp
  · simp only [hits, h1 "e" _ (by decide)]; simp

/-- the hypotheses of the theorems hold of it -/
example : ∃ st, Evt (fun f => linElim f infty id (fun c : TV => c == .f) (some [at' "goal" []]) 4 (demoA ++ demoS :: demoB) 1 = some (st, .done)) ∧
    ∀ d x, (∀ φ, gsub φ demoS.head ≠ x) → ∀ b, (∀ n, rounds (demoA ++ demoS :: demoB) d n x ≤ b) ↔ ∀ n, rounds st.p.rules d n x ≤ b :=
  C38_least Function.injective_id (by simp; rfl) demo_pre demo_linear

/-- **C38 fails for rules that share variables.**  Eliminating `f(X,Y) += g(X,Y)` from a program with `h(X) += f(Y,X)`, the same
`X` and `Y`, gives `h(X) += g(X,X)`: the two rules are not renamed apart.  Such programs are made by `hook`, where the new
definition has the variables of the rule it was taken from. -/
def capS : WRule TV := ⟨at' "f" [.var 0, .var 1], [.sub (at' "g" [.var 0, .var 1])]⟩
def capB : WRule TV := ⟨at' "h" [.var 0], [.sub (at' "f" [.var 1, .var 0])]⟩

def capQ : List (WRule TV) := [⟨at' "h" [.var 4], [.sub (at' "g" [.var 4, .var 4])]⟩, ⟨at' "h" [.var 5], [.sub (at' "f" [.var 6, .var 5])]⟩]

abbrev ca : GTm := ⟨.con (.str "a"), by simp [Ground]⟩
abbrev cb : GTm := ⟨.con (.str "b"), by simp [Ground]⟩
def ab : Nat → GTm := fun n => if n = 0 then cb else ca

theorem C38_shared_variables : (linElim 20 .t id (· == .f) none 2 [capS, capB] 0).map (fun o => (o.1.p.rules, o.2)) = some (capQ, .done) ∧
    ∃ d w, Sol capQ d w ∧ ∀ v, Sol [capS, capB] d v → ¬ ∀ x, (∀ φ, gsub φ capS.head ≠ x) → v x = w x := by
  classical
  refine ⟨by decide +kernel, fun x => if x = gsub ab (at' "g" [.var 0, .var 1]) then .t else .f,
    fun x => if x = gsub ab (at' "g" [.var 0, .var 1]) then .t else .f, fun x => ?_, fun v hv h => ?_⟩
  · have z : T capQ (fun x => if x = gsub ab (at' "g" [.var 0, .var 1]) then TV.t else .f) x = 0 := by
      have c1 : ∀ h q, (∀ θ, gsub θ q ≠ gsub ab (at' "g" [.var 0, .var 1])) →
          contrib (⟨h, [.sub q]⟩ : WRule TV) (fun x => if x = gsub ab (at' "g" [.var 0, .var 1]) then TV.t else .f) x = 0 := by
        intro h q hq
        unfold contrib
        refine (isum_congr fun a => ?_).trans isum_zero
        simp only [bv, List.map_cons, List.map_nil, List.prod_cons, List.prod_nil, mul_one, lv, if_neg (hq _), ite_self]
        split <;> rfl
      unfold capQ
      rw [T_cons, T_cons, T_nil, c1, c1]
      · rfl
      · intro θ e
        have := congrArg Subtype.val e
        simp [gsub] at this
      · intro θ e
        have := congrArg Subtype.val e
        simp [gsub, ab] at this
        rw [this.1] at this
        simp at this
    rw [z, add_zero]
  · have e1 : v (gsub ab (at' "g" [.var 0, .var 1])) = .t := by
      rw [h _ fun φ e => by have := congrArg Subtype.val e; simp [gsub, capS] at this]
      simp
    have c1 : ∀ (r : WRule TV) θ q, r.body = [.sub q] → vars q ⊆ rvars r → v (gsub θ q) = .t → contrib r v (gsub θ r.head) = .t := by
      intro r θ q hb hq hv
      unfold contrib
      refine (TV.any_iff _).2 ⟨cut _ θ, ?_⟩
      have hc : ∀ n ∈ rvars r, ext (cut (rvars r) θ) n = θ n := fun n hn => ext_cut hn
      rw [gsub_congr (φ := θ) (t := r.head) fun n hn => hc n (Finset.mem_union_left _ hn), if_pos rfl, hb]
      simp only [bv, List.map_cons, List.map_nil, List.prod_cons, List.prod_nil, mul_one, lv]
      rw [gsub_congr (φ := θ) (t := q) fun n hn => hc n (hq hn), hv]
    have e2 : v (gsub ab (at' "f" [.var 0, .var 1])) = .t := by
      rw [hv, T_cons, TV.add_iff, TV.add_iff]
      exact .inr (.inl (c1 capS ab _ rfl (by decide) e1))
    have e3 : v (gsub ab (at' "h" [.var 1])) = .t := by
      have hf : gsub (fun n => ab (1 - n)) (at' "f" [.var 1, .var 0]) = gsub ab (at' "f" [.var 0, .var 1]) := Subtype.ext (by simp [gsub])
      have hh : gsub (fun n => ab (1 - n)) (at' "h" [.var 0]) = gsub ab (at' "h" [.var 1]) := Subtype.ext (by simp [gsub])
      rw [hv, T_cons, T_cons, TV.add_iff, TV.add_iff, TV.add_iff, ← hh]
      exact .inr (.inr (.inl (c1 capB _ _ rfl (by decide) (hf ▸ e2))))
    rw [h _ fun φ e => by have := congrArg Subtype.val e; simp [gsub, capS] at this] at e3
    simp only [ite_eq_left_iff, reduceCtorEq, imp_false, not_not] at e3
    have := congrArg Subtype.val e3
    simp [gsub] at this

/-- **`elim` can raise.**  `goal += f(1) * f(2). f(X) += e(X).`: the two subgoals do not unify with each other, so `linearize` leaves
the rule alone; both unify with the head to be eliminated. -/
theorem C38_elim_raises : (elim 20 TV.t id (· == .f) Linearize.isSig (some [at' "goal" []]) ⟨[
      ⟨at' "goal" [], [.sub (at' "f" [.con (.int 1)]), .sub (at' "f" [.con (.int 2)])]⟩, ⟨at' "f" [.var 0], [.sub (at' "e" [.var 0])]⟩],
      [at' "e" [.var 1]]⟩ 2 0 1).map (fun o => o.map Prod.snd) = some (some assertion) := by decide +kernel

end Examples

end Elim
end Verif
