/-
What the incremental update of a program (`ProgUpdate`) means for the step operator: adding a rule with
`Program.update` adds what the rule contributes, whether the rule is stored, merged into another one or dropped.
-/
import Verif.ProgUpdateThm
import Verif.FoldThm

set_option linter.unusedSectionVars false
set_option linter.unusedSimpArgs false

namespace Verif
open Tm
open Sem

namespace ProgUpdate
variable {W : Type} [CSemi W] [DecidableEq W]

open WRule (vals subs)

/-- a body is the product of its constants and its subgoals -/
theorem bv_split (v : GTm → W) (θ : Nat → GTm) (b : List (Lit W)) :
    bv v θ b = (vals b).prod * ((subs b).map fun t => v (gsub θ t)).prod := by
  induction b with
  | nil => simp [bv, vals, subs]
  | cons l b ih =>
    rw [bv_cons, ih]
    cases l with
    | val k => simp only [lv, WRule.vals_cons_val, WRule.subs_cons_val, List.prod_cons, mul_assoc]
    | sub t => simp only [lv, WRule.vals_cons_sub, WRule.subs_cons_sub, List.map_cons, List.prod_cons]; ring

theorem bodyVars_subs (b : List (Lit W)) (n : Nat) : n ∈ bodyVars b ↔ ∃ t ∈ subs b, n ∈ vars t := by
  induction b with
  | nil => simp [bodyVars, subs]
  | cons l b ih =>
    cases l with
    | val k => simp [bodyVars, litVars, ih]
    | sub t => simp [bodyVars, litVars, ih]

/-- rules with the same head, subgoals and product of constants contribute the same -/
theorem contrib_same {r s : WRule W} (h1 : s.head = r.head) (h2 : subs s.body = subs r.body) (h3 : (vals s.body).prod = (vals r.body).prod)
    (v : GTm → W) (x : GTm) : Sem.contrib s v x = Sem.contrib r v x := by
  have hV : rvars s = rvars r := by
    ext n
    simp only [rvars, Finset.mem_union, bodyVars_subs, h1, h2]
  rw [contrib_eq hV]
  unfold Sem.contrib
  refine isum_congr fun a => ?_
  rw [h1, bv_split, bv_split v _ r.body, h2, h3]

theorem contrib_null {r : WRule W} (h : (vals r.body).prod = 0) (v : GTm → W) (x : GTm) : Sem.contrib r v x = 0 := by
  unfold Sem.contrib
  refine (isum_congr fun a => ?_).trans isum_zero
  rw [bv_split, h, zero_mul, ite_self]

/-- `constant_folding_rhs` keeps what the rule contributes -/
theorem contrib_fold {dead : W → Bool} {r r' : WRule W} (h : r.fold dead = some r') (v : GTm → W) (x : GTm) :
    Sem.contrib r' v x = Sem.contrib r v x := by
  obtain ⟨_, h1, h2, h3, _⟩ := WRule.fold_some h
  exact contrib_same h1 h2 h3 v x

theorem contrib_fold_none {dead : W → Bool} (hdead : ∀ c, dead c = true → c = 0) {r : WRule W} (h : r.fold dead = none) (v : GTm → W) (x : GTm) :
    Sem.contrib r v x = 0 := by
  simp only [WRule.fold, WRule.foldl_prod, one_mul] at h
  split at h
  · rename_i hd
    exact contrib_null (hdead _ hd) v x
  · split at h <;> cases h

theorem fresh_ren {fv : Nat → Nat} (hfv : Function.Injective fv) (k : Nat) (r : WRule W) :
    ∃ ρ, r.fresh fv k = renRule ρ r ∧ Set.InjOn ρ (rvars r) := by
  obtain ⟨w1, a1, a2, a3, a4⟩ := ren_spec (fun i => fv (k + i)) r.head [] (by simp)
  simp only [List.nil_append] at a1 a2 a3 a4
  obtain ⟨w2, b1, b2, b3, b4⟩ := Unfold.renB_spec (fun i => fv (k + i)) r.body w1 a2
  have hm : ∀ n, n ∈ rvars r → n ∈ w1 ++ w2 := fun n hn => by
    rw [b3, a3]
    simpa [rvars] using hn
  refine ⟨fun n => fv (k + idx (w1 ++ w2) n), ?_, ?_⟩
  · simp only [WRule.fresh, renRule, a1, b4]
    rw [a4 w2 b2]
  · intro a ha b hb h
    have : idx (w1 ++ w2) a = idx (w1 ++ w2) b := by have := hfv h; omega
    exact idx_inj (hm a ha) this

theorem contrib_fresh {fv : Nat → Nat} (hfv : Function.Injective fv) (k : Nat) (r : WRule W) (v : GTm → W) (x : GTm) :
    Sem.contrib (r.fresh fv k) v x = Sem.contrib r v x := by
  obtain ⟨ρ, h1, h2⟩ := fresh_ren hfv k r
  rw [h1, contrib_ren h2]

/-- constant rules with variant heads -/
theorem contrib_const_variant {h h' : Tm} (hv : Variant h h') (c : W) (v : GTm → W) (x : GTm) :
    Sem.contrib ⟨h', [.val c]⟩ v x = Sem.contrib ⟨h, [.val c]⟩ v x := by
  obtain ⟨ρ, h1, rfl⟩ := hv
  have : rvars (⟨h, [.val c]⟩ : WRule W) = vars h := by simp [rvars, bodyVars, litVars]
  rw [← contrib_ren (ρ := ρ) (r := ⟨h, [.val c]⟩) (by rw [this]; exact h1)]
  rfl

/-- a constant factor comes out of the sum -/
theorem contrib_cons_val (h : Tm) (c : W) (b : List (Lit W)) (v : GTm → W) (x : GTm) :
    Sem.contrib ⟨h, .val c :: b⟩ v x = c * Sem.contrib ⟨h, b⟩ v x := by
  rw [← Unfold.contrib_val ⟨h, b⟩ c]
  exact (contrib_perm (r := ⟨h, b ++ [.val c]⟩) (List.perm_append_singleton _ _) v x)

theorem contrib_cons_add (h : Tm) (c c' : W) (b : List (Lit W)) (v : GTm → W) (x : GTm) :
    Sem.contrib ⟨h, .val (c + c') :: b⟩ v x = Sem.contrib ⟨h, .val c :: b⟩ v x + Sem.contrib ⟨h, .val c' :: b⟩ v x := by
  simp only [contrib_cons_val, add_mul]

theorem constRhs_some {r : WRule W} {c : W} (h : r.constRhs = some c) (v : GTm → W) (x : GTm) :
    Sem.contrib r v x = Sem.contrib ⟨r.head, [.val c]⟩ v x := by
  unfold WRule.constRhs at h
  split at h
  · rename_i hb; cases h
    exact contrib_same (s := r) (r := ⟨r.head, [.val _]⟩) rfl (by simp [hb, subs]) (by simp [hb, vals]) v x
  · rename_i k hb; cases h
    exact contrib_same (s := r) (r := ⟨r.head, [.val _]⟩) rfl (by simp [hb, subs]) (by simp [hb, vals]) v x
  · cases h

/-! ### Property C19, for the step operator -/

theorem update_T {cv fv : Nat → Nat} (hcv : Function.Injective cv) (hfv : Function.Injective fv) {dead : W → Bool}
    (hdead : ∀ c, dead c = true → c = 0) {k : Nat} {p p' : St W} (hp : BInv cv p) {r : WRule W} (e : update cv fv dead k p r = some p')
    (v : GTm → W) (x : GTm) : T p'.rules v x = T p.rules v x + Sem.contrib r v x := by
  unfold update at e
  split at e
  · rename_i hf
    cases e
    rw [contrib_fold_none hdead hf, add_zero]
  rename_i r1 hf
  rw [← contrib_fold hf]
  have hd : DInv cv p.rules (getBuckets cv p) := by
    unfold getBuckets
    split
    · rename_i d hd; exact hp d hd
    · have := makeGo_spec (cv := cv) p.rules [] [] (fun k i h => by simp at h)
      simpa using this
  generalize getBuckets cv p = d at e hd
  unfold updateBucket at e
  cases hc : r1.constRhs with
  | none =>
    simp only [hc, Option.some.injEq] at e
    subst e
    rw [T_append, T_cons, T_nil, add_zero, contrib_fresh hfv]
  | some C =>
    simp only [hc] at e
    cases hg : d.get (canonP cv r1.head) with
    | none =>
      simp only [hg, Option.some.injEq] at e
      subst e
      rw [T_append, T_cons, T_nil, add_zero, contrib_fresh hfv]
    | some i =>
      obtain ⟨s, s1, s2, s3⟩ := hd _ i hg
      simp only [hg, s1] at e
      obtain ⟨sh, sb⟩ := s
      have hsb : sb = [] ∨ ∃ S, sb = [.val S] := by
        unfold WRule.constRhs at s3
        split at s3
        · rename_i hb; exact .inl hb
        · rename_i S hb; exact .inr ⟨S, hb⟩
        · exact absurd rfl s3
      rcases hsb with rfl | ⟨S, rfl⟩
      · cases e
      · simp only [Option.some.injEq] at e
        subst e
        have hv : Variant sh r1.head := (canonP_eq_iff hcv).1 s2
        obtain ⟨hi, hi'⟩ := List.getElem?_eq_some_iff.1 s1
        rw [T_perm (List.set_perm_cons_eraseIdx hi _), T_perm (List.getElem_cons_eraseIdx_perm hi).symm, T_cons, T_cons, hi',
          contrib_cons_add, constRhs_some hc, contrib_const_variant hv]
        ring

/-- **C19 (step operator).**  An update adds what the rule contributes, for every valuation and item. -/
theorem C19_step {cv fv : Nat → Nat} (hcv : Function.Injective cv) (hfv : Function.Injective fv) {dead : W → Bool}
    (hdead : ∀ c, dead c = true → c = 0) {k : Nat} {p p' : St W} (hp : Reach cv fv dead p) {r : WRule W}
    (e : update cv fv dead k p r = some p') (v : GTm → W) (x : GTm) : T p'.rules v x = T p.rules v x + Sem.contrib r v x :=
  update_T hcv hfv hdead (hp.inv hcv hfv hdead) e v x

/-- adding `d(X) += 4` to `d(Y) += 9` -/
example : update (K := Nat) id id (· == 0) 7 ⟨[⟨.app [.con (.str "d"), .var 2], [.val 9]⟩], none⟩ ⟨.app [.con (.str "d"), .var 5], [.val 2, .val 2]⟩ ≠ none :=
  by decide +kernel

/-- the hypotheses hold in the empty program with an exact zero test -/
example (k : Nat) (r : WRule W) (v : GTm → W) (x : GTm) : ∃ p', update id id (fun c : W => decide (c = 0)) k ⟨[], none⟩ r = some p' ∧
    T p'.rules v x = Sem.contrib r v x := by
  obtain ⟨p', h1, h2, h3⟩ := C19_no_error (fv := id) Function.injective_id Function.injective_id (dead := fun c : W => decide (c = 0)) (by simp)
    (p := ⟨[], none⟩) (fun d hd => by simp at hd) (fun r hr => by simp at hr) k r
  refine ⟨p', h1, ?_⟩
  rw [update_T Function.injective_id Function.injective_id (by simp) (fun d hd => by simp at hd) h1, T_nil, zero_add]

end ProgUpdate
end Verif
