/-
Property C52: constant folding does not change the step operator.
-/
import Verif.CFold
import Verif.SemUpdate

set_option linter.unusedSectionVars false
set_option linter.unusedSimpArgs false

namespace Verif
open Tm
open Sem

namespace CFold
open ProgUpdate (contrib_cons_add contrib_cons_val contrib_const_variant contrib_fold contrib_fold_none contrib_same bv_split)
open WRule (vals subs)
variable {W : Type} [CSemi W] [DecidableEq W]

/-! ### Sums over dictionaries -/

theorem sum_set_new {α β : Type} [DecidableEq α] (g : α × β → W) : ∀ (d : Dict α β) (k : α) (b : β), d.get k = none →
    ((d.set k b).map g).sum = (d.map g).sum + g (k, b)
  | [], k, b, _ => by simp [Dict.set]
  | (k', b') :: d, k, b, h => by
    rw [Dict.get_cons] at h
    split at h
    · cases h
    · rename_i hk
      simp only [Dict.set, if_neg hk, List.map_cons, List.sum_cons, sum_set_new g d k b h]
      ring

theorem sum_set_old {α β : Type} [DecidableEq α] (g : α × β → W) {c : W} : ∀ (d : Dict α β) (k : α) (b b' : β), d.get k = some b →
    g (k, b') = g (k, b) + c → ((d.set k b').map g).sum = (d.map g).sum + c
  | [], k, b, b', h, _ => by simp at h
  | (k1, b1) :: d, k, b, b', h, hc => by
    rw [Dict.get_cons] at h
    split at h
    · rename_i hk
      subst hk
      cases h
      simp only [Dict.set, if_true, List.map_cons, List.sum_cons, hc]
      ring
    · rename_i hk
      simp only [Dict.set, if_neg hk, List.map_cons, List.sum_cons, sum_set_old g d k b b' h hc]
      ring

/-! ### The rule a bucket stands for -/

/-- the rule a bucket stands for -/
def asRule (b : Tm × List Tm × W) : WRule W := ⟨b.1, .val b.2.2 :: b.2.1.map .sub⟩

theorem contrib_split {dead : W → Bool} {r r' : WRule W} (h : r.fold dead = some r') (v : GTm → W) (x : GTm) :
    contrib (asRule (r'.head, (split r').2, (split r').1)) v x = contrib r v x := by
  rw [← contrib_fold h]
  obtain ⟨_, _, _, _, _, _, _⟩ := WRule.fold_some h
  refine contrib_same (s := asRule (r'.head, (split r').2, (split r').1)) (r := r') rfl ?_ ?_ v x
  · unfold split asRule
    split <;> rename_i hb <;> simp [hb, WRule.subs_subs_map]
  · simp only [WRule.fold, WRule.foldl_prod, one_mul] at h
    split at h
    · cases h
    split at h
    · cases h
      simp only [asRule, WRule.vals_cons_val, WRule.vals_subs_map, List.prod_cons, List.prod_nil, mul_one]
      unfold split
      split
      · rename_i c b hb
        have : vals ((subs r.body).map (Lit.sub : Tm → Lit W)) = c :: vals b := by
          have := congrArg vals hb
          simpa using this
        rw [WRule.vals_subs_map] at this
        cases this
      · rfl
    · cases h
      simp only [asRule, split, WRule.vals_cons_val, WRule.vals_subs_map, List.prod_cons, List.prod_nil, mul_one]

/-- rules with the same key contribute the same -/
theorem contrib_key {cv : Nat → Nat} (hcv : Function.Injective cv) {ord : List Tm → List Tm} (hord : ∀ l, (ord l).Perm l) {h h' : Tm}
    {xs xs' : List Tm} (e : key cv ord h xs = key cv ord h' xs') (c : W) (v : GTm → W) (x : GTm) :
    contrib (asRule (h', xs', c)) v x = contrib (asRule (h, xs, c)) v x := by
  obtain ⟨ρ, h1, h2⟩ := (canonP_eq_iff hcv).1 e
  simp only [sub_app, List.map_cons, sub_con, Tm.app.injEq, List.cons.injEq, true_and] at h2
  obtain ⟨rfl, h3⟩ := h2
  refine Fold.contrib_variant ⟨ρ, ?_, rfl, ?_⟩ v x
  · intro a ha b hb
    have : ∀ n ∈ rvars (asRule (h, xs, c)), n ∈ vars (.app (.con (.str "$skel") :: h :: ord xs)) := by
      intro n hn
      simp only [asRule, rvars, bodyVars, litVars, Finset.empty_union, Finset.mem_union, mem_bodyVars, List.mem_map] at hn
      simp only [vars_app, mem_varsL, List.mem_cons]
      rcases hn with hn | ⟨l, ⟨t, ht, rfl⟩, hn⟩
      · exact ⟨h, .inr (.inl rfl), hn⟩
      · exact ⟨t, .inr (.inr ((hord xs).mem_iff.2 ht)), hn⟩
    exact h1 (this a ha) (this b hb)
  · have hp : xs'.Perm (xs.map (Tm.sub fun n => .var (ρ n))) := by
      refine (hord xs').symm.trans ?_
      rw [h3]
      exact (hord xs).map _
    simp only [asRule, List.map_cons, renLit, List.map_map]
    refine List.Perm.cons _ ?_
    have := hp.map (Lit.sub : Tm → Lit W)
    simpa [List.map_map, Function.comp_def, renLit] using this

/-! ### The loops -/

/-- every bucket is stored under its own key -/
def KInv (cv : Nat → Nat) (ord : List Tm → List Tm) (d : Buckets W) : Prop := ∀ k b, d.get k = some b → key cv ord b.1 b.2.1 = k

theorem add_spec {cv : Nat → Nat} (hcv : Function.Injective cv) {ord : List Tm → List Tm} (hord : ∀ l, (ord l).Perm l) {d : Buckets W}
    (hd : KInv cv ord d) {dead : W → Bool} {r r' : WRule W} (h : r.fold dead = some r') :
    KInv cv ord (add cv ord d r') ∧ ∀ v x, ((add cv ord d r').map fun kb => contrib (asRule kb.2) v x).sum =
      (d.map fun kb => contrib (asRule kb.2) v x).sum + contrib r v x := by
  unfold add
  simp only
  split
  · rename_i h0 xs total hg
    have hk := hd _ _ hg
    simp only at hk
    refine ⟨fun k b hb => ?_, fun v x => ?_⟩
    · rw [Dict.get_set] at hb
      split at hb
      · rename_i e
        cases hb
        rw [← e]; exact hk
      · exact hd k b hb
    · refine sum_set_old (fun kb : Tm × (Tm × List Tm × W) => contrib (asRule kb.2) v x) d _ (h0, xs, total) (h0, xs, total + (split r').1) hg ?_
      simp only
      rw [← contrib_split h, contrib_key hcv hord hk]
      exact contrib_cons_add _ _ _ _ v x
  · rename_i hg
    refine ⟨fun k b hb => ?_, fun v x => ?_⟩
    · rw [Dict.get_set] at hb
      split at hb
      · rename_i e
        cases hb
        exact e
      · exact hd k b hb
    · rw [sum_set_new (fun kb : Tm × (Tm × List Tm × W) => contrib (asRule kb.2) v x) d _ _ hg]
      simp only
      rw [contrib_split h]

theorem addAll_spec {cv : Nat → Nat} (hcv : Function.Injective cv) {ord : List Tm → List Tm} (hord : ∀ l, (ord l).Perm l) {dead : W → Bool}
    (hdead : ∀ c, dead c = true → c = 0) : ∀ (p : List (WRule W)) (d : Buckets W), KInv cv ord d →
    ∀ v x, (((p.filterMap (WRule.fold dead)).foldl (add cv ord) d).map fun kb => contrib (asRule kb.2) v x).sum =
      (d.map fun kb => contrib (asRule kb.2) v x).sum + T p v x
  | [], d, _, v, x => by simp [T_nil]
  | r :: p, d, hd, v, x => by
    cases h : r.fold dead with
    | none => rw [List.filterMap_cons_none h, addAll_spec hcv hord hdead p d hd, T_cons, contrib_fold_none hdead h, zero_add]
    | some r' =>
      obtain ⟨h1, h2⟩ := add_spec hcv hord hd h
      rw [List.filterMap_cons_some h, List.foldl_cons, addAll_spec hcv hord hdead p _ h1, h2, T_cons, add_assoc]

theorem chart_spec {cv : Nat → Nat} (hcv : Function.Injective cv) (v : GTm → W) (x : GTm) (b : Tm × List Tm × W) (d : Dict Tm W) :
    ((addChart cv d b).map fun c => contrib ⟨c.1, [.val c.2]⟩ v x).sum =
      (d.map fun c => contrib ⟨c.1, [.val c.2]⟩ v x).sum + if b.2.1 = [] then contrib (asRule b) v x else 0 := by
  unfold addChart
  split
  · rename_i hb
    have hv : contrib (asRule b) v x = contrib ⟨canonP cv b.1, [.val b.2.2]⟩ v x := by
      rw [contrib_const_variant (canonP_variant hcv b.1)]
      simp [asRule, hb]
    rw [hv]
    cases hg : d.get (canonP cv b.1) with
    | none =>
      rw [sum_set_new (fun c : Tm × W => contrib ⟨c.1, [.val c.2]⟩ v x) d _ _ hg]
      simp
    | some c =>
      exact sum_set_old (fun c : Tm × W => contrib ⟨c.1, [.val c.2]⟩ v x) d _ c _ hg (contrib_cons_add _ _ _ _ v x)
  · simp

theorem emit_spec {cv : Nat → Nat} (hcv : Function.Injective cv) (v : GTm → W) (x : GTm) : ∀ (bs : List (Tm × List Tm × W)) (d : Dict Tm W),
    T (bs.filterMap symbolic) v x + ((bs.foldl (addChart cv) d).map fun c => contrib ⟨c.1, [.val c.2]⟩ v x).sum =
      (bs.map fun b => contrib (asRule b) v x).sum + (d.map fun c => contrib ⟨c.1, [.val c.2]⟩ v x).sum
  | [], d => by simp [T_nil]
  | b :: bs, d => by
    have ih := emit_spec hcv v x bs (addChart cv d b)
    rw [chart_spec hcv] at ih
    rw [List.foldl_cons, List.map_cons, List.sum_cons]
    by_cases hb : b.2.1 = []
    · rw [if_pos hb] at ih
      rw [List.filterMap_cons_none (by simp [symbolic, hb]), ih]
      ring
    · rw [if_neg hb, add_zero] at ih
      have : ∃ s, symbolic b = some s ∧ contrib s v x = contrib (asRule b) v x := by
        unfold symbolic
        rw [if_neg hb]
        split
        · rename_i h1
          exact ⟨_, rfl, contrib_same (s := ⟨b.1, b.2.1.map .sub⟩) (r := asRule b) rfl (by simp [asRule]) (by simp [asRule, h1]) v x⟩
        · exact ⟨_, rfl, rfl⟩
      obtain ⟨s, h1, h2⟩ := this
      rw [List.filterMap_cons_some h1, T_cons, h2, add_assoc, ih]
      ring

/-! ### Property C52 -/

/-- **C52.**  Constant folding does not change the step operator: for every valuation every item gets the same value. -/
theorem C52_step {cv : Nat → Nat} (hcv : Function.Injective cv) {ord : List Tm → List Tm} (hord : ∀ l, (ord l).Perm l) {dead : W → Bool}
    (hdead : ∀ c, dead c = true → c = 0) (p : List (WRule W)) (v : GTm → W) (x : GTm) : T (folded cv ord dead p) v x = T p v x := by
  have h1 := addAll_spec hcv hord hdead p [] (fun k b h => by simp at h) v x
  have h2 := emit_spec hcv v x ((merged cv ord dead p).map Prod.snd) []
  simp only [List.map_nil, List.sum_nil, zero_add, add_zero, List.map_map] at h1 h2
  unfold folded
  simp only
  rw [T_append]
  have e : T ((((merged cv ord dead p).map Prod.snd).foldl (addChart cv) []).map fun c => (⟨c.1, [.val c.2]⟩ : WRule W)) v x =
      ((((merged cv ord dead p).map Prod.snd).foldl (addChart cv) []).map fun c => contrib ⟨c.1, [.val c.2]⟩ v x).sum := by
    simp [T, List.map_map, Function.comp_def]
  rw [e, h2, ← h1]
  rfl

/-- ... so it has the same solutions and the same rounds of naive evaluation -/
theorem C52_values {cv : Nat → Nat} (hcv : Function.Injective cv) {ord : List Tm → List Tm} (hord : ∀ l, (ord l).Perm l) {dead : W → Bool}
    (hdead : ∀ c, dead c = true → c = 0) (p : List (WRule W)) (d : GTm → W) :
    (∀ v, Sol (folded cv ord dead p) d v ↔ Sol p d v) ∧ rounds (folded cv ord dead p) d = rounds p d := by
  have h : T (folded cv ord dead p) = T p := by funext v x; exact C52_step hcv hord hdead p v x
  refine ⟨fun v => by unfold Sol; rw [h], ?_⟩
  funext n
  induction n with
  | zero => rfl
  | succ n ih => funext x; simp only [rounds, ih, h]

/-- the keys of `chart` are canonical and different -/
def CInv (cv : Nat → Nat) (d : Dict Tm W) : Prop := d.WF ∧ ∀ c ∈ d, canonP cv c.1 = c.1

theorem addChart_inv {cv : Nat → Nat} (hcv : Function.Injective cv) : ∀ (bs : List (Tm × List Tm × W)) (d : Dict Tm W), CInv cv d →
    CInv cv (bs.foldl (addChart cv) d)
  | [], d, h => h
  | b :: bs, d, h => by
    rw [List.foldl_cons]
    apply addChart_inv hcv
    unfold addChart
    split
    · refine ⟨h.1.set _ _, fun c hc => ?_⟩
      rcases (Dict.mem_set h.1).1 hc with rfl | ⟨hc, _⟩
      · exact ((canonP_eq_iff hcv).2 (canonP_variant hcv b.1)).symm
      · exact h.2 c hc
    · exact h

/-- **C52 (merged).**  Of the rules without subgoals, no two have the same head up to renaming, and each is one constant. -/
theorem C52_merged {cv : Nat → Nat} (hcv : Function.Injective cv) (ord : List Tm → List Tm) (dead : W → Bool) (p : List (WRule W)) :
    ((folded cv ord dead p).filter fun r => subs r.body = []).Pairwise (fun r s => ¬ Variant r.head s.head) ∧
      ∀ r ∈ folded cv ord dead p, subs r.body = [] → ∃ c, r.body = [.val c] := by
  have hsym : ∀ r ∈ ((merged cv ord dead p).map Prod.snd).filterMap symbolic, subs r.body ≠ [] := by
    intro r hr
    obtain ⟨b, _, hb⟩ := List.mem_filterMap.1 hr
    unfold symbolic at hb
    split at hb
    · cases hb
    · rename_i hne
      split at hb <;> (cases hb; simpa [WRule.subs_subs_map] using hne)
  obtain ⟨hwf, hcan⟩ := addChart_inv (W := W) hcv ((merged cv ord dead p).map Prod.snd) [] ⟨Dict.WF.nil, by simp⟩
  unfold folded
  simp only
  constructor
  · rw [List.filter_append, List.filter_eq_nil_iff.2 (by simpa using hsym), List.nil_append]
    refine List.Pairwise.filter _ ?_
    rw [List.pairwise_map]
    unfold Dict.WF Dict.keys List.Nodup at hwf
    rw [List.pairwise_map] at hwf
    refine hwf.imp_of_mem fun {a b} ha hb hne hv => hne ?_
    have := (canonP_eq_iff hcv).2 hv
    rwa [hcan a ha, hcan b hb] at this
  · intro r hr hs
    rcases List.mem_append.1 hr with hr | hr
    · exact absurd hs (hsym r hr)
    · obtain ⟨c, _, rfl⟩ := List.mem_map.1 hr
      exact ⟨c.2, rfl⟩

/-! ### Where the code differs -/

section Examples
open Unfold (at')

/-- **C52 fails for coefficients below the tolerance.**  If the zero test accepts a nonzero constant, rules using it are
lost: `a += c` with `dead c`. -/
theorem C52_tolerance {c : W} (hc : c ≠ 0) {dead : W → Bool} (h : dead c = true) (cv : Nat → Nat) (ord : List Tm → List Tm) :
    ∃ (p : List (WRule W)) (v : GTm → W) (x : GTm), T (folded cv ord dead p) v x ≠ T p v x := by
  refine ⟨[⟨at' "a" [], [.val c]⟩], fun _ => 0, gsub (fun _ => g0) (at' "a" []), ?_⟩
  have h1 : folded cv ord dead [(⟨at' "a" [], [.val c]⟩ : WRule W)] = [] := by
    have : WRule.fold dead (⟨at' "a" [], [.val c]⟩ : WRule W) = none := by simp [WRule.fold, vals, h]
    simp [folded, merged, this]
  rw [h1, T_nil, T_cons, T_nil, add_zero]
  have hV : rvars (⟨at' "a" [], [.val c]⟩ : WRule W) = ∅ := by simp [rvars, bodyVars, litVars, at', vars_app, varsL]
  rw [contrib_eq hV]
  haveI : Unique (Asg ∅) := ⟨⟨fun n => absurd n.2 (Finset.notMem_empty _)⟩, fun a => funext fun n => absurd n.2 (Finset.notMem_empty _)⟩
  rw [isum_unique]
  have e : ∀ θ, gsub θ (at' "a" []) = gsub (fun _ => g0) (at' "a" []) := fun θ => gsub_congr fun n hn => by simp [at', vars_app, varsL] at hn
  simp only [e, if_true, bv, lv, List.map_cons, List.map_nil, List.prod_cons, List.prod_nil, mul_one]
  exact hc.symm

/-- `a(X) += 2 * b(X) * c(X)`, `a(Y) += 3 * c(Y) * b(Y)`, `d(X) += 1`, `d(Y) += 4 * 2`, `e += 0 * b(X)` -/
def foldP : List (WRule Nat) := [
  ⟨at' "a" [.var 0], [.val 2, .sub (at' "b" [.var 0]), .sub (at' "c" [.var 0])]⟩,
  ⟨at' "a" [.var 1], [.sub (at' "b" [.var 1]), .val 3, .sub (at' "c" [.var 1])]⟩,
  ⟨at' "d" [.var 2], []⟩, ⟨at' "d" [.var 3], [.val 4, .val 2]⟩, ⟨at' "e" [], [.val 0, .sub (at' "b" [.var 4])]⟩]

/-- it becomes `a(X) += 5 * b(X) * c(X)`, `d(X) += 9` -/
example : folded id id (· == 0) foldP =
    [⟨at' "a" [.var 0], [.val 5, .sub (at' "b" [.var 0]), .sub (at' "c" [.var 0])]⟩, ⟨at' "d" [.var 0], [.val 9]⟩] := by decide +kernel

/-- the hypotheses of the theorem hold with an exact zero test and any way to sort -/
example (p : List (WRule W)) (v : GTm → W) (x : GTm) : T (folded id List.reverse (fun c => decide (c = 0)) p) v x = T p v x :=
  C52_step Function.injective_id List.reverse_perm (by simp) p v x

end Examples

end CFold
end Verif
