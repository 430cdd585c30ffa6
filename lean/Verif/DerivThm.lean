/-
Properties C26 (values are sums over derivation trees), C30 and C31 (the bottom-up enumerators are exact) and
C32 (measures of derivations).
-/
import Verif.Deriv
import Verif.NaiveThm

set_option linter.unusedSectionVars false
set_option linter.unusedSimpArgs false

namespace Verif
open Tm Heap

namespace Deriv
open Solver (forEach forEach_restores forEach_cons_done RunCalls unify_done litVars ground_val litVal instVal contrib rhs
  Safe GSub InRule Bnd noHeap good_noHeap restr restr_in restr_head Sat LitSat)
open Query
open Naive (splits mem_splits iter)

section Spec
variable {K : Type}

mutual
/-- the leaves of a tree from left to right; a succeeded builtin counts as the leaf `1` -/
def leaves [One K] : Deriv K → List K
  | .const k => [k]
  | .bi _ _ => [1]
  | .node _ _ kids => leavesL kids
def leavesL [One K] : List (Deriv K) → List K
  | [] => []
  | d :: ds => leaves d ++ leavesL ds
end

/-- the item a tree derives -/
def item : Deriv K → Tm
  | .node _ x _ => x
  | _ => .app []

/-- the tree `d` is suitable for the body element `z` instantiated by `θ` -/
def Fits (θ : Nat → Tm) : BLit K → Deriv K → Prop
  | .val k, d => d = .const k
  | .sub t, d => d.base = false ∧ item d = t.sub θ
  | .eq x y, d => x.sub θ = y.sub θ ∧ d = .bi (x.sub θ) (y.sub θ)
  | .cmp o x y, d => o (x.sub θ) (y.sub θ) = true ∧ d = .bi (x.sub θ) (y.sub θ)

/-- the top of a tree is a ground instance of a rule of the program -/
def Top (rules : List (SRule K)) (i : Nat) (x : Tm) (kids : List (Deriv K)) : Prop :=
  ∃ r θ, rules[i]? = some r ∧ θ ∈ GSub r ∧ x = r.head.sub θ ∧ List.Forall₂ (Fits θ) r.body kids

mutual
def Valid (rules : List (SRule K)) : Deriv K → Prop
  | .const _ => True
  | .bi _ _ => True
  | .node i x kids => Top rules i x kids ∧ ValidL rules kids
def ValidL (rules : List (SRule K)) : List (Deriv K) → Prop
  | [] => True
  | d :: ds => Valid rules d ∧ ValidL rules ds
end

/-- `d` is a derivation of the item `x` -/
def IsDeriv (rules : List (SRule K)) (x : Tm) (d : Deriv K) : Prop := d.base = false ∧ item d = x ∧ Valid rules d

end Spec

variable {K : Type}

theorem validL_iff {rules : List (SRule K)} {ds : List (Deriv K)} : ValidL rules ds ↔ ∀ d ∈ ds, Valid rules d := by
  induction ds with
  | nil => simp [ValidL]
  | cons d ds ih => simp [ValidL, ih]

theorem heightL_le {ds : List (Deriv K)} {n : Nat} : heightL ds ≤ n ↔ ∀ d ∈ ds, height d ≤ n := by
  induction ds with
  | nil => simp [heightL]
  | cons d ds ih => simp [heightL, ih]

theorem height_node {i : Nat} {x : Tm} {kids : List (Deriv K)} {n : Nat} :
    height (.node i x kids) ≤ n + 1 ↔ ∀ d ∈ kids, height d ≤ n := by
  rw [height, ← heightL_le]; omega

/-! ### Property C32 -/

theorem combine_le {ds : List Nat} {n : Nat} (h : ∀ a ∈ ds, a ≤ n) : combine ds ≤ 1 + n := by
  unfold combine
  split
  · omega
  · rename_i a e
    have : a ∈ ds := by rw [← List.mem_mergeSort (le := fun a b => decide (b ≤ a)), e]; simp
    have := h a this
    omega
  · rename_i a b l e
    have : a ∈ ds := by rw [← List.mem_mergeSort (le := fun a b => decide (b ≤ a)), e]; simp
    have := h a this
    split <;> omega

mutual
/-- The dimension of a derivation is at most its height. -/
theorem C32_dimension_height : ∀ d : Deriv K, dimension d ≤ height d
  | .const _ => by simp [dimension]
  | .bi _ _ => by simp [dimension]
  | .node i x kids => by
    rw [dimension, height]
    exact combine_le (dims_le kids)
theorem dims_le : ∀ ds : List (Deriv K), ∀ a ∈ dims ds, a ≤ heightL ds
  | [] => by simp [dims]
  | d :: ds => by
    intro a ha
    simp only [dims, List.mem_cons] at ha
    rw [heightL]
    rcases ha with rfl | ha
    · exact le_trans (C32_dimension_height d) (le_max_left _ _)
    · exact le_trans (dims_le ds a ha) (le_max_right _ _)
end

mutual
/-- The height of a derivation is at most its size. -/
theorem C32_height_size : ∀ d : Deriv K, height d ≤ size d
  | .const _ => by simp [height]
  | .bi _ _ => by simp [height]
  | .node i x kids => by
    rw [height, size]
    have := heightL_sizeL kids
    omega
theorem heightL_sizeL : ∀ ds : List (Deriv K), heightL ds ≤ sizeL ds
  | [] => by simp [heightL]
  | d :: ds => by
    rw [heightL, sizeL]
    have := C32_height_size d
    have := heightL_sizeL ds
    omega
end

mutual
theorem value_leaves [One K] : ∀ d : Deriv K, value d = (match d with | .const k => .one k | d => .prod (leaves d))
  | .const _ => by simp [value]
  | .bi _ _ => by simp [value, Val.mul, leaves]
  | .node i x kids => by
    rw [value, valueL_leavesL kids]
    simp [leaves]
theorem valueL_leavesL [One K] : ∀ ds : List (Deriv K), valueL ds = leavesL ds
  | [] => by simp [valueL, leavesL]
  | d :: ds => by
    rw [valueL, leavesL, valueL_leavesL ds, value_leaves d]
    cases d <;> simp [Val.mul, leaves]
end

/-- The value of a derivation is the product of its leaves, in order. -/
theorem C32_value [One K] {d : Deriv K} (h : ∀ k, d ≠ .const k) : value d = .prod (leaves d) := by
  rw [value_leaves]
  cases d with
  | const k => exact absurd rfl (h k)
  | bi x y => rfl
  | node i x kids => rfl

/-- The numbers compared by `dimension` are the two largest: with a tie of the largest the dimension is one more
than the largest, otherwise it is the largest. -/
theorem C32_dimension {i : Nat} {x : Tm} {kids : List (Deriv K)} {m : Nat} (hm : ∀ d ∈ kids, dimension d ≤ m)
    (hex : ∃ d ∈ kids, dimension d = m) :
    dimension (.node i x kids) = if 2 ≤ kids.countP (fun d => decide (dimension d = m)) then m + 1 else m := by
  rw [dimension]
  have hd : ∀ ds : List (Deriv K), dims ds = ds.map dimension := by
    intro ds; induction ds with
    | nil => rfl
    | cons d ds ih => simp [dims, ih]
  rw [hd]
  have hc : kids.countP (fun d => decide (dimension d = m)) = (kids.map dimension).count m := by
    rw [List.count, List.countP_map]; rfl
  rw [hc]
  have hm' : ∀ a ∈ kids.map dimension, a ≤ m := by
    intro a ha; obtain ⟨d, hd, rfl⟩ := List.mem_map.1 ha; exact hm d hd
  have hex' : m ∈ kids.map dimension := by
    obtain ⟨d, h1, h2⟩ := hex; exact List.mem_map.2 ⟨d, h1, h2⟩
  generalize kids.map dimension = ds at hm' hex'
  have hp : (ds.mergeSort fun a b => decide (b ≤ a)).Perm ds := List.mergeSort_perm _ _
  have hs : (ds.mergeSort fun a b => decide (b ≤ a)).Pairwise fun a b => decide (b ≤ a) = true :=
    List.pairwise_mergeSort (fun a b c h1 h2 => by simp at *; omega) (fun a b => by simp; omega) ds
  unfold combine
  rw [← hp.count_eq]
  have hmem := fun a => hp.mem_iff (a := a)
  generalize (ds.mergeSort fun a b => decide (b ≤ a)) = l at hs hmem
  have h1 := (hmem m).2 hex'
  have h2 : ∀ a ∈ l, a ≤ m := fun a ha => hm' a ((hmem a).1 ha)
  match l, hs, h1, h2 with
  | [a], _, h1, _ => simp at h1; simp [h1]
  | a :: b :: l, hs, h1, h2 =>
    simp only [List.pairwise_cons, List.mem_cons, decide_eq_true_eq] at hs h1 h2
    have hb := hs.1 b (.inl rfl)
    have ha : a = m := by
      refine le_antisymm (h2 a (.inl rfl)) ?_
      rcases h1 with rfl | rfl | h1
      · omega
      · exact hb
      · exact hs.1 m (.inr h1)
    simp only
    by_cases hab : a = b
    · rw [if_pos hab, if_pos]
      · omega
      · rw [← ha]; subst hab; simp
    · rw [if_neg hab, if_neg, ha]
      rw [not_le]
      have : m ∉ b :: l := by
        intro hin
        rcases List.mem_cons.1 hin with rfl | hin
        · exact hab ha
        · have := hs.2.1 m hin; omega
      rw [List.count_cons, List.count_eq_zero_of_not_mem this]
      split <;> omega

/-! ### One rule -/

section Enum
variable [CommSemiring K]

/-- the pure part of `wrapF` -/
def wrap (θ : Nat → Tm) : List (BLit K) → List (Deriv K) → List (Deriv K)
  | .eq x y :: b, _ :: ds => .bi (x.sub θ) (y.sub θ) :: wrap θ b ds
  | .cmp _ x y :: b, _ :: ds => .bi (x.sub θ) (y.sub θ) :: wrap θ b ds
  | _ :: b, d :: ds => d :: wrap θ b ds
  | _, _ => []

theorem wrapF_eq {h : Heap} {f : Nat} : ∀ {b : List (BLit K)} {P ds : List (Deriv K)}, wrapF h f b P = some ds → ds = wrap (res h) b P := by
  intro b
  induction b with
  | nil => intro P ds e; simp [wrapF] at e; simp [wrap, e]
  | cons z b ih =>
    intro P ds e
    cases P with
    | nil => cases z <;> simp [wrapF] at e <;> simp [wrap, e]
    | cons d P =>
      cases z with
      | val k =>
        simp only [wrapF] at e
        split at e
        · rename_i ds' e'; simp at e; simp [wrap, ← e, ih e']
        · simp at e
      | sub t =>
        simp only [wrapF] at e
        split at e
        · rename_i ds' e'; simp at e; simp [wrap, ← e, ih e']
        · simp at e
      | eq x y =>
        simp only [wrapF] at e
        split at e
        · rename_i ex ey e'; simp at e; simp [wrap, ← e, ih e', deref_eq_sub ex, deref_eq_sub ey]
        · simp at e
      | cmp o x y =>
        simp only [wrapF] at e
        split at e
        · rename_i ex ey e'; simp at e; simp [wrap, ← e, ih e', deref_eq_sub ex, deref_eq_sub ey]
        · simp at e

/-- the finished subtree `k` for a body element with its chart -/
def W (θ : Nat → Tm) (p : Src (Deriv K) × BLit K) (k : Deriv K) : Prop :=
  match p.2 with
  | .val c => p.1.bi = true ∧ k = .const c
  | .sub t => (t.sub θ, k) ∈ p.1.ent
  | .eq x y => p.1.bi = true ∧ x.sub θ = y.sub θ ∧ k = .bi (x.sub θ) (y.sub θ)
  | .cmp o x y => p.1.bi = true ∧ o (x.sub θ) (y.sub θ) = true ∧ k = .bi (x.sub θ) (y.sub θ)

theorem W_iff {θ : Nat → Tm} : ∀ {zs : List (Src (Deriv K) × BLit K)} {kids : List (Deriv K)},
    List.Forall₂ (W θ) zs kids ↔ ∃ ws, List.Forall₂ (Sat1 .const θ) zs ws ∧ wrap θ (zs.map Prod.snd) ws = kids := by
  intro zs
  induction zs with
  | nil =>
    intro kids
    constructor
    · intro h; cases h; exact ⟨[], .nil, rfl⟩
    · rintro ⟨ws, h, rfl⟩; cases h; exact .nil
  | cons z zs ih =>
    intro kids
    obtain ⟨src, z⟩ := z
    constructor
    · intro h
      cases h with
      | @cons _ k _ ks h1 h2 =>
        obtain ⟨ws, h3, rfl⟩ := ih.1 h2
        cases z with
        | val c => exact ⟨k :: ws, .cons h1 h3, rfl⟩
        | sub t => exact ⟨k :: ws, .cons h1 h3, rfl⟩
        | eq x y => exact ⟨.const 1 :: ws, .cons ⟨h1.1, h1.2.1, rfl⟩ h3, by simp [wrap, h1.2.2]⟩
        | cmp o x y => exact ⟨.const 1 :: ws, .cons ⟨h1.1, h1.2.1, rfl⟩ h3, by simp [wrap, h1.2.2]⟩
    · rintro ⟨ws, h, rfl⟩
      cases h with
      | @cons _ w _ ws h1 h2 =>
        have h3 := ih.2 ⟨ws, h2, rfl⟩
        cases z with
        | val c => exact .cons h1 h3
        | sub t => exact .cons h1 h3
        | eq x y => exact .cons ⟨h1.1, h1.2.1, rfl⟩ h3
        | cmp o x y => exact .cons ⟨h1.1, h1.2.1, rfl⟩ h3

/-- a chart of derivations: ground items, every entry under its own item, no entry twice -/
structure OkC (C : DChart K) : Prop where
  ground : ∀ e ∈ C, Ground e.1
  key : ∀ e ∈ C, e.2.base = false ∧ item e.2 = e.1
  nodup : C.Nodup

theorem OkC.nil : OkC ([] : DChart K) := ⟨by simp, by simp, by simp⟩

theorem OkC.src {C : DChart K} (h : OkC C) (b : Bool) : Src.Ok ⟨C, b⟩ := ⟨h.ground, h.nodup⟩

/-- the entries of the charts consulted are under their own items -/
def Keyed (zs : List (Src (Deriv K) × BLit K)) : Prop := ∀ p ∈ zs, OkC p.1.ent

theorem wrap_inj {θ θ' : Nat → Tm} : ∀ {zs : List (Src (Deriv K) × BLit K)} {ws ws' : List (Deriv K)}, Keyed zs →
    List.Forall₂ (Sat1 .const θ) zs ws → List.Forall₂ (Sat1 .const θ') zs ws' →
    wrap θ (zs.map Prod.snd) ws = wrap θ' (zs.map Prod.snd) ws' →
    ws = ws' ∧ ∀ t, BLit.sub t ∈ zs.map Prod.snd → t.sub θ = t.sub θ' := by
  intro zs
  induction zs with
  | nil => intro ws ws' _ h h' _; cases h; cases h'; simp
  | cons z zs ih =>
    intro ws ws' hk h h' e
    obtain ⟨src, z⟩ := z
    cases h with
    | @cons _ w _ ws h1 h2 => cases h' with
      | @cons _ w' _ ws' h1' h2' =>
        have hk0 := hk (src, z) (by simp)
        have ih := @ih ws ws' (fun p hp => hk p (by simp [hp])) h2 h2'
        cases z with
        | val c =>
          simp only [List.map_cons, wrap, List.cons.injEq] at e
          obtain ⟨rfl, a⟩ := ih e.2
          exact ⟨by rw [e.1], fun t ht => a t (by simpa using ht)⟩
        | sub t =>
          simp only [List.map_cons, wrap, List.cons.injEq] at e
          obtain ⟨rfl, a⟩ := ih e.2
          refine ⟨by rw [e.1], fun t' ht => ?_⟩
          simp only [List.map_cons, List.mem_cons, BLit.sub.injEq] at ht
          rcases ht with rfl | ht
          · have b1 := (hk0.key _ h1).2
            have b2 := (hk0.key _ h1').2
            simp only at b1 b2
            rw [← b1, ← b2, e.1]
          · exact a t' ht
        | eq x y =>
          simp only [List.map_cons, wrap, List.cons.injEq] at e
          obtain ⟨rfl, a⟩ := ih e.2
          exact ⟨by rw [h1.2.2, h1'.2.2], fun t ht => a t (by simpa using ht)⟩
        | cmp o x y =>
          simp only [List.map_cons, wrap, List.cons.injEq] at e
          obtain ⟨rfl, a⟩ := ih e.2
          exact ⟨by rw [h1.2.2, h1'.2.2], fun t ht => a t (by simpa using ht)⟩

theorem sat_mem {θ : Nat → Tm} {zs : List (Src (Deriv K) × BLit K)} {ws : List (Deriv K)} (h : List.Forall₂ (Sat1 .const θ) zs ws)
    {z : BLit K} (hz : z ∈ zs.map Prod.snd) : ∃ src w, (src, z) ∈ zs ∧ Sat1 .const θ (src, z) w := by
  obtain ⟨p, hp, rfl⟩ := List.mem_map.1 hz
  clear hz
  induction h with
  | nil => simp at hp
  | cons h1 _ ih =>
    rcases List.mem_cons.1 hp with rfl | hp
    · exact ⟨_, _, List.mem_cons_self, h1⟩
    · obtain ⟨src, w, h2, h3⟩ := ih hp
      exact ⟨src, w, List.mem_cons_of_mem _ h2, h3⟩

theorem bnd_agree {b : List (BLit K)} {θ θ' : Nat → Tm} (hs : ∀ t, BLit.sub t ∈ b → t.sub θ = t.sub θ')
    (he : ∀ x y, BLit.eq x y ∈ b → x.sub θ = y.sub θ ∧ x.sub θ' = y.sub θ') {n : Nat} (h : Bnd b n) : θ n = θ' n := by
  induction h with
  | sub hz hn => exact sub_eq_on_vars (hs _ hz) _ hn
  | eqr hz _ hn ih =>
    obtain ⟨a, c⟩ := he _ _ hz
    refine sub_eq_on_vars ?_ _ hn
    rw [← a, ← c]; exact sub_congr ih
  | eql hz _ hn ih =>
    obtain ⟨a, c⟩ := he _ _ hz
    refine sub_eq_on_vars ?_ _ hn
    rw [a, c]; exact sub_congr ih

theorem bnd_grd {b : List (BLit K)} {θ : Nat → Tm} (hs : ∀ t, BLit.sub t ∈ b → Ground (t.sub θ))
    (he : ∀ x y, BLit.eq x y ∈ b → x.sub θ = y.sub θ) {n : Nat} (h : Bnd b n) : Ground (θ n) := by
  induction h with
  | sub hz hn => exact Solver.ground_of_mem (hs _ hz) hn
  | eqr hz _ hn ih =>
    refine Solver.ground_of_mem (t := _) ?_ hn
    rw [← he _ _ hz]; exact Solver.ground_sub ih
  | eql hz _ hn ih =>
    refine Solver.ground_of_mem (t := _) ?_ hn
    rw [he _ _ hz]; exact Solver.ground_sub ih

/-- what the firings of one rule produce -/
def Fired (r : SRule K) (i : Nat) (zs : List (Src (Deriv K) × BLit K)) (e : Tm × Deriv K) : Prop :=
  ∃ θ ∈ GSub r, ∃ kids, List.Forall₂ (W θ) zs kids ∧ e = (r.head.sub θ, .node i (r.head.sub θ) kids)

/-- `k` appends exactly the entries `P`, each once -/
def Lists (k : Body (DChart K)) (P : Tm × Deriv K → Prop) : Prop :=
  ∀ s h' s', k noHeap s = some (h', s', .done) → ∃ M, s' = s ++ M ∧ M.Nodup ∧ ∀ e, e ∈ M ↔ P e

theorem sat_congr1 {θ θ' : Nat → Tm} {p : Src (Deriv K) × BLit K} {b : Deriv K} (hz : ∀ n ∈ litVars p.2, θ n = θ' n)
    (h1 : Sat1 .const θ' p b) : Sat1 .const θ p b := by
  obtain ⟨src, z⟩ := p
  cases z with
  | val k => exact h1
  | sub t => simp only [Sat1, litVars] at *; rw [sub_congr hz]; exact h1
  | eq u v =>
    simp only [Sat1, litVars, Finset.mem_union] at *
    rw [sub_congr fun n hn => hz n (.inl hn), sub_congr fun n hn => hz n (.inr hn)]; exact h1
  | cmp o u v =>
    simp only [Sat1, litVars, Finset.mem_union] at *
    rw [sub_congr fun n hn => hz n (.inl hn), sub_congr fun n hn => hz n (.inr hn)]; exact h1

theorem satL_congr {θ θ' : Nat → Tm} {zs : List (Src (Deriv K) × BLit K)} {ws : List (Deriv K)}
    (hz : ∀ p ∈ zs, ∀ n ∈ litVars p.2, θ n = θ' n) (h : List.Forall₂ (Sat1 .const θ') zs ws) : List.Forall₂ (Sat1 .const θ) zs ws := by
  induction h with
  | nil => exact .nil
  | cons h1 _ ih => exact .cons (sat_congr1 (hz _ (by simp)) h1) (ih fun p hp => hz p (by simp [hp]))

theorem run_append {k : List (Deriv K) → Body (DChart K)} {mk : List (Deriv K) × Heap → Tm × Deriv K} {L : List (List (Deriv K) × Heap)}
    {s s' : DChart K} (h : RunCalls k L s s') (hc : ∀ p ∈ L, ∀ s s', k p.1 p.2 s = some (p.2, s', .done) → s' = s ++ [mk p]) :
    s' = s ++ L.map mk := by
  induction h with
  | nil => simp
  | @cons a h L s s1 s2 e _ ih =>
    rw [ih fun p hp => hc p (by simp [hp]), hc (a, h) (by simp) _ _ e]
    simp

/-- the firings of one rule, the body elements looked up in the order `zs` and put back in order by `arr` -/
theorem fired_list {r : SRule K} (hr : Safe r) {i : Nat} {zs zsB : List (Src (Deriv K) × BLit K)} (hB : zsB.map Prod.snd = r.body)
    (hp : zs.Perm zsB) (hk : Keyed zsB) {arr : List (Deriv K) → List (Deriv K)}
    (harr : ∀ θ ws, List.Forall₂ (Sat1 .const θ) zsB ws ↔ ∃ vs, List.Forall₂ (Sat1 .const θ) zs vs ∧ arr vs = ws)
    (hinj : ∀ vs vs', vs.length = zs.length → vs'.length = zs.length → arr vs = arr vs' → vs = vs')
    {L : List (List (Deriv K) × Heap)} (hL : Yields (K := K) .const noHeap zs L) {k : List (Deriv K) → Body (DChart K)} {s s' : DChart K}
    (hrun : RunCalls k L s s')
    (hcall : ∀ p ∈ L, ∀ s s', k p.1 p.2 s = some (p.2, s', .done) →
      s' = s ++ [(r.head.sub (res p.2), .node i (r.head.sub (res p.2)) (wrap (res p.2) r.body (arr p.1)))]) :
    ∃ M, s' = s ++ M ∧ M.Nodup ∧ ∀ e, e ∈ M ↔ Fired r i zsB e := by
  set mk : List (Deriv K) × Heap → Tm × Deriv K := fun p =>
    (r.head.sub (res p.2), .node i (r.head.sub (res p.2)) (wrap (res p.2) r.body (arr p.1))) with hmk
  have hs : ∀ p ∈ L, List.Forall₂ (Sat1 .const (res p.2)) zs p.1 := fun p hp => (hL.sound p hp _ (hL.good p hp).respects_res).2
  have hsB : ∀ p ∈ L, List.Forall₂ (Sat1 .const (res p.2)) zsB (arr p.1) := fun p hp => (harr _ _).2 ⟨_, hs p hp, rfl⟩
  have hin : ∀ z ∈ zs, ∀ n ∈ litVars z.2, InRule r n := fun z hz n hn =>
    .inr ⟨z.2, by rw [← hB]; exact List.mem_map.2 ⟨z, hp.subset hz, rfl⟩, hn⟩
  have hinB : ∀ z ∈ zsB, ∀ n ∈ litVars z.2, InRule r n := fun z hz n hn => hin z (hp.symm.subset hz) n hn
  have heq : ∀ θ ws, List.Forall₂ (Sat1 .const θ) zsB ws → ∀ x y, BLit.eq x y ∈ r.body → x.sub θ = y.sub θ := by
    intro θ ws h x y hxy
    rw [← hB] at hxy
    obtain ⟨src, w, _, h2⟩ := sat_mem h hxy
    exact h2.2.1
  have hgrd : ∀ p ∈ L, ∀ n, InRule r n → Ground (res p.2 n) := by
    intro p hp n hn
    refine bnd_grd ?_ (heq _ _ (hsB p hp)) (hr.bnd n hn)
    intro t ht
    rw [← hB] at ht
    obtain ⟨src, w, h1, h2⟩ := sat_mem (hsB p hp) ht
    exact (hk _ h1).ground _ h2
  refine ⟨L.map mk, ?_, ?_, ?_⟩
  · exact run_append hrun hcall
  · unfold List.Nodup
    rw [List.pairwise_map]
    refine hL.disjoint.imp_of_mem ?_
    intro p p' hp1 hp2 hd e
    simp only [hmk, Prod.mk.injEq, Deriv.node.injEq, true_and] at e
    have e2 := e.2.2
    rw [← hB] at e2
    obtain ⟨h1, h2⟩ := wrap_inj hk (hsB p hp1) (hsB p' hp2) e2
    have h3 := hinj _ _ (hs p hp1).length_eq.symm (hs p' hp2).length_eq.symm h1
    have hagree : ∀ n, InRule r n → res p.2 n = res p'.2 n := fun n hn =>
      bnd_agree (fun t ht => h2 t (by rwa [hB])) (fun x y hxy => ⟨heq _ _ (hsB p hp1) x y hxy, heq _ _ (hsB p' hp2) x y hxy⟩) (hr.bnd n hn)
    exact hd h3 (res p.2) (res p'.2) (fun z hz n hn => hagree n (hin z hz n hn)) (hL.good p hp1).respects_res (hL.good p' hp2).respects_res
  · intro e
    constructor
    · intro he
      obtain ⟨p, hp1, rfl⟩ := List.mem_map.1 he
      have hag : ∀ n, InRule r n → restr r (res p.2) n = res p.2 n := fun n hn => restr_in hn
      refine ⟨restr r (res p.2), ⟨fun n hn => by rw [restr_in hn]; exact hgrd p hp1 n hn, fun n hn => by simp [restr, hn]⟩,
        wrap (res p.2) r.body (arr p.1), ?_, by rw [restr_head]⟩
      have h1 : List.Forall₂ (W (res p.2)) zsB (wrap (res p.2) r.body (arr p.1)) := W_iff.2 ⟨_, hsB p hp1, by rw [hB]⟩
      have : ∀ (zs : List (Src (Deriv K) × BLit K)) ks, (∀ p ∈ zs, ∀ n ∈ litVars p.2, InRule r n) → List.Forall₂ (W (res p.2)) zs ks →
          List.Forall₂ (W (restr r (res p.2))) zs ks := by
        intro zs ks hz h
        induction h with
        | nil => exact .nil
        | @cons q kk zs ks a _ ih =>
          refine .cons ?_ (ih fun p hp => hz p (by simp [hp]))
          have hz := hz q (by simp)
          obtain ⟨src, z⟩ := q
          cases z with
          | val c => exact a
          | sub t =>
            simp only [W, litVars] at *
            rw [sub_congr fun n hn => hag n (hz n hn)]; exact a
          | eq x y =>
            simp only [W, litVars, Finset.mem_union] at *
            rw [sub_congr fun n hn => hag n (hz n (.inl hn)), sub_congr fun n hn => hag n (hz n (.inr hn))]; exact a
          | cmp o x y =>
            simp only [W, litVars, Finset.mem_union] at *
            rw [sub_congr fun n hn => hag n (hz n (.inl hn)), sub_congr fun n hn => hag n (hz n (.inr hn))]; exact a
      exact this _ _ hinB h1
    · rintro ⟨θ, hθ, kids, hW, rfl⟩
      obtain ⟨ws, h1, h2⟩ := W_iff.1 hW
      obtain ⟨vs, h3, h4⟩ := (harr θ ws).1 h1
      obtain ⟨p, hp1, h5, h6⟩ := hL.complete θ vs (Solver.respects_noHeap θ) h3
      have hag : ∀ n, InRule r n → θ n = res p.2 n := by
        intro n hn
        have := Solver.sub_eq_of_ground (hL.good p hp1) (x := .var n) (by simpa using hgrd p hp1 n hn) h5
        simpa using this
      refine List.mem_map.2 ⟨p, hp1, ?_⟩
      simp only [hmk]
      have hh : r.head.sub (res p.2) = r.head.sub θ := (sub_congr fun n hn => hag n (.inl hn)).symm
      have hw : wrap (res p.2) r.body (arr p.1) = kids := by
        rw [← h2, hB, h6, h4]
        have : ∀ (b : List (BLit K)) (ds : List (Deriv K)), (∀ z ∈ b, ∀ n ∈ litVars z, θ n = res p.2 n) → wrap (res p.2) b ds = wrap θ b ds := by
          intro b
          induction b with
          | nil => intro ds _; simp [wrap]
          | cons z b ih =>
            intro ds hz
            have ih := ih ds.tail fun z hz' => hz z (by simp [hz'])
            have hz := hz z (by simp)
            cases ds with
            | nil => cases z <;> simp [wrap]
            | cons d ds =>
              simp only [List.tail_cons] at ih
              cases z with
              | val k => simp [wrap, ih]
              | sub t => simp [wrap, ih]
              | eq x y =>
                simp only [litVars, Finset.mem_union] at hz
                simp [wrap, ih, sub_congr fun n hn => hz n (.inl hn), sub_congr fun n hn => hz n (.inr hn)]
              | cmp o x y =>
                simp only [litVars, Finset.mem_union] at hz
                simp [wrap, ih, sub_congr fun n hn => hz n (.inl hn), sub_congr fun n hn => hz n (.inr hn)]
        exact this r.body ws fun z hz n hn => hag n (.inr ⟨z, hz, hn⟩)
      rw [hh, hw]

/-! ### All rules -/

theorem forEach_lists {α : Type} {b : α → Body (DChart K)} (hb : ∀ a, Restores (b a)) {P : α → Tm × Deriv K → Prop} : ∀ {l : List α},
    (∀ a ∈ l, Lists (b a) (P a)) → (l.Pairwise fun a a' => ∀ e, P a e → P a' e → False) → Lists (forEach l b) (fun e => ∃ a ∈ l, P a e) := by
  intro l
  induction l with
  | nil =>
    intro _ _ s h' s' e
    simp only [forEach, Option.some.injEq, Prod.mk.injEq, and_true] at e
    obtain ⟨_, rfl⟩ := e
    exact ⟨[], by simp⟩
  | cons a l ih =>
    intro hl hp s h' s' e
    obtain ⟨h1, s1, e1, e2⟩ := forEach_cons_done e
    have := hb a _ _ _ _ _ e1
    subst this
    obtain ⟨M1, rfl, n1, m1⟩ := hl a (by simp) _ _ _ e1
    obtain ⟨M2, rfl, n2, m2⟩ := ih (fun b hb => hl b (by simp [hb])) (List.pairwise_cons.1 hp).2 _ _ _ e2
    refine ⟨M1 ++ M2, by simp, ?_, fun e => by simp [m1, m2]⟩
    rw [List.nodup_append]
    refine ⟨n1, n2, ?_⟩
    rintro e he e' he' rfl
    obtain ⟨a', ha', hP⟩ := (m2 e).1 he'
    exact (List.pairwise_cons.1 hp).1 a' ha' e ((m1 e).1 he) hP

theorem addD_restores {f : Nat} {r : SRule K} {i : Nat} {P : List (Deriv K)} : Restores (addD f r i P) := by
  intro h s h' s' sig e
  unfold addD at e
  split at e
  · simp only [Option.some.injEq, Prod.mk.injEq] at e; exact e.1.symm
  · simp only [Option.some.injEq, Prod.mk.injEq] at e; exact e.1.symm
  · simp at e

theorem addRaw_restores {f : Nat} {r : SRule K} {i : Nat} {P : List (Deriv K)} : Restores (addRaw f r i P) := by
  intro h s h' s' sig e
  unfold addRaw at e
  split at e
  · simp only [Option.some.injEq, Prod.mk.injEq] at e; exact e.1.symm
  · split at e
    · simp only [Option.some.injEq, Prod.mk.injEq] at e; exact e.1.symm
    · simp only [Option.some.injEq, Prod.mk.injEq] at e; exact e.1.symm
    · simp at e

theorem addD_call {f : Nat} {r : SRule K} {i : Nat} {P : List (Deriv K)} {h h' : Heap} {s s' : DChart K}
    (e : addD f r i P h s = some (h', s', .done)) :
    s' = s ++ [(r.head.sub (res h), .node i (r.head.sub (res h)) (wrap (res h) r.body P))] := by
  unfold addD at e
  split at e
  · rename_i x ds eg ed ew
    simp only [Option.some.injEq, Prod.mk.injEq, and_true] at e
    rw [← e.2, wrapF_eq ew, deref_eq_sub ed]
  · simp at e
  · simp at e

theorem wrap_id {θ : Nat → Tm} : ∀ {b : List (BLit K)} {ds : List (Deriv K)}, b.any isBuiltin = false → ds.length = b.length → wrap θ b ds = ds := by
  intro b
  induction b with
  | nil => intro ds _ h; simp at h; simp [h, wrap]
  | cons z b ih =>
    intro ds hb h
    cases ds with
    | nil => simp at h
    | cons d ds =>
      simp only [List.any_cons, Bool.or_eq_false_iff] at hb
      have ih := ih hb.2 (by simpa using h)
      cases z with
      | val k => simp [wrap, ih]
      | sub t => simp [wrap, ih]
      | eq x y => simp [isBuiltin] at hb
      | cmp o x y => simp [isBuiltin] at hb

theorem addRaw_call {f : Nat} {r : SRule K} {i : Nat} {P : List (Deriv K)} (hP : P.length = r.body.length) {h h' : Heap} {s s' : DChart K}
    (e : addRaw f r i P h s = some (h', s', .done)) :
    s' = s ++ [(r.head.sub (res h), .node i (r.head.sub (res h)) (wrap (res h) r.body P))] := by
  unfold addRaw at e
  split at e
  · simp at e
  · rename_i hb
    split at e
    · rename_i x eg ed
      simp only [Option.some.injEq, Prod.mk.injEq, and_true] at e
      rw [← e.2, deref_eq_sub ed, wrap_id (by simpa using hb) hP]
    · simp at e
    · simp at e

theorem joinD_restores {S : Type} {f : Nat} {src : Src (Deriv K)} {body : List (BLit K)} {k : List (Deriv K) → Body S}
    (hk : ∀ P, Restores (k P)) : Restores (joinD f src body k) := joinZ_restores hk _ _

theorem joinD_spec {S : Type} {f : Nat} {src : Src (Deriv K)} (hs : src.Ok) {body : List (BLit K)} (hfn : ∀ z ∈ body, FnOk z)
    {k : List (Deriv K) → Body S} (hk : ∀ P, Restores (k P)) {h : Heap} (hg : Good h) {s h' s'}
    (e : joinD f src body k h s = some (h', s', .done)) :
    ∃ L, Yields .const h (body.map fun z => (src, z)) L ∧ RunCalls k L s s' := by
  have := joinZ_spec hk (body.map fun z => (src, z)) (by
    intro p hp; obtain ⟨_, _, rfl⟩ := List.mem_map.1 hp; exact hs) (by
    intro p hp; obtain ⟨z0, hz0, rfl⟩ := List.mem_map.1 hp; exact hfn z0 hz0) [] h s h' s' hg e
  simpa using this

/-- the derivations whose top rule is applied to derivations in the chart -/
def Next (rules : List (SRule K)) (C : DChart K) (e : Tm × Deriv K) : Prop :=
  ∃ i kids, e.2 = .node i e.1 kids ∧ Top rules i e.1 kids ∧ ∀ k ∈ kids, k.base = false → (item k, k) ∈ C

theorem W_chart {C : DChart K} (hC : OkC C) {θ : Nat → Tm} {z : BLit K} {k : Deriv K} :
    W θ (⟨C, true⟩, z) k ↔ Fits θ z k ∧ (k.base = false → (item k, k) ∈ C) := by
  cases z with
  | val c =>
    simp only [W, Fits, true_and]
    constructor
    · rintro rfl; exact ⟨rfl, by simp [base]⟩
    · rintro ⟨h, _⟩; exact h
  | sub t =>
    simp only [W, Fits]
    constructor
    · intro h
      have := hC.key _ h
      exact ⟨this, fun _ => by rw [this.2]; exact h⟩
    · rintro ⟨⟨h1, h2⟩, h3⟩
      rw [← h2]; exact h3 h1
  | eq x y =>
    simp only [W, Fits, true_and]
    constructor
    · rintro ⟨h, rfl⟩; exact ⟨⟨h, rfl⟩, by simp [base]⟩
    · rintro ⟨h, _⟩; exact h
  | cmp o x y =>
    simp only [W, Fits, true_and]
    constructor
    · rintro ⟨h, rfl⟩; exact ⟨⟨h, rfl⟩, by simp [base]⟩
    · rintro ⟨h, _⟩; exact h

theorem W_chartL {C : DChart K} (hC : OkC C) {θ : Nat → Tm} : ∀ {b : List (BLit K)} {kids : List (Deriv K)},
    List.Forall₂ (W θ) (b.map fun z => ((⟨C, true⟩ : Src (Deriv K)), z)) kids ↔
      List.Forall₂ (Fits θ) b kids ∧ ∀ k ∈ kids, k.base = false → (item k, k) ∈ C := by
  intro b
  induction b with
  | nil =>
    intro kids
    constructor
    · intro h; cases h; exact ⟨.nil, by simp⟩
    · rintro ⟨h, _⟩; cases h; exact .nil
  | cons z b ih =>
    intro kids
    constructor
    · intro h
      cases h with
      | cons h1 h2 =>
        obtain ⟨a1, a2⟩ := (W_chart hC).1 h1
        obtain ⟨b1, b2⟩ := ih.1 h2
        refine ⟨.cons a1 b1, ?_⟩
        intro k hk
        rcases List.mem_cons.1 hk with rfl | hk
        · exact a2
        · exact b2 k hk
    · rintro ⟨h1, h2⟩
      cases h1 with
      | cons a1 b1 => exact .cons ((W_chart hC).2 ⟨a1, h2 _ (by simp)⟩) (ih.2 ⟨b1, fun k hk => h2 k (by simp [hk])⟩)

theorem fired_index {r r' : SRule K} {i i' : Nat} {zs zs' : List (Src (Deriv K) × BLit K)} {e : Tm × Deriv K}
    (h : Fired r i zs e) (h' : Fired r' i' zs' e) : i = i' := by
  obtain ⟨θ, _, kids, _, rfl⟩ := h
  obtain ⟨θ', _, kids', _, e⟩ := h'
  simp only [Prod.mk.injEq, Deriv.node.injEq] at e
  exact e.2.1

theorem zipIdx_pairwise {α : Type} (l : List α) : l.zipIdx.Pairwise fun p q => p.2 ≠ q.2 := by
  have : (l.zipIdx.map Prod.snd).Nodup := by
    rw [List.zipIdx_map_snd]; exact List.nodup_range'
  unfold List.Nodup at this
  rwa [List.pairwise_map] at this

/-- `step_derivations` lists exactly the trees over the chart, each once -/
theorem stepD_exact {rules : List (SRule K)} (hr : ∀ r ∈ rules, Safe r) {f : Nat} {C C' : DChart K} (hC : OkC C)
    (e : stepD rules f C = some (C', .done)) : C'.Nodup ∧ ∀ e, e ∈ C' ↔ Next rules C e := by
  unfold stepD at e
  rw [Option.map_eq_some_iff] at e
  obtain ⟨⟨h', q', sig⟩, e, e2⟩ := e
  simp only [Prod.mk.injEq] at e2
  obtain ⟨rfl, rfl⟩ := e2
  have := forEach_lists (P := fun p e => Fired p.1 p.2 (p.1.body.map fun z => ((⟨C, true⟩ : Src (Deriv K)), z)) e)
    (fun p => joinD_restores fun _ => addD_restores) (l := rules.zipIdx) (by
      intro p hp s h' s' e
      have hrs : Safe p.1 := hr _ (List.fst_mem_of_mem_zipIdx hp)
      obtain ⟨L, hL, hrun⟩ := joinD_spec (hC.src true) (Naive.safe_fn hrs) (fun _ => addD_restores) good_noHeap e
      refine fired_list hrs (zs := p.1.body.map fun z => ((⟨C, true⟩ : Src (Deriv K)), z)) (arr := id) (by simp [List.map_map, Function.comp_def]) (List.Perm.refl _) ?_ ?_ ?_ hL hrun ?_
      · intro q hq; obtain ⟨_, _, rfl⟩ := List.mem_map.1 hq; exact hC
      · intro θ ws; simp
      · intro vs vs' _ _ h; exact h
      · intro q _ s s' e; exact addD_call e)
    ((zipIdx_pairwise rules).imp fun h e h1 h2 => h (fired_index h1 h2)) _ _ _ e
  obtain ⟨M, hM, hnd, hmem⟩ := this
  simp only [List.nil_append] at hM
  subst hM
  refine ⟨hnd, fun e => (hmem e).trans ?_⟩
  constructor
  · rintro ⟨⟨r, i⟩, hp, θ, hθ, kids, hW, rfl⟩
    obtain ⟨hF, hin⟩ := (W_chartL hC).1 hW
    exact ⟨i, kids, rfl, ⟨r, θ, List.mem_zipIdx_iff_getElem?.1 hp, hθ, rfl, hF⟩, hin⟩
  · rintro ⟨i, kids, h1, ⟨r, θ, h2, hθ, h3, hF⟩, hin⟩
    refine ⟨(r, i), List.mem_zipIdx_iff_getElem?.2 h2, θ, hθ, kids, (W_chartL hC).2 ⟨hF, hin⟩, ?_⟩
    obtain ⟨x, d⟩ := e
    simp only at h1 h3 ⊢
    rw [h1, h3]

/-! ### Driving a change -/

/-- the charts for one split, in the order of the body -/
def zsB (old new d : DChart K) (p : List (BLit K) × BLit K × List (BLit K)) : List (Src (Deriv K) × BLit K) :=
  p.1.map (fun z => ((⟨new, true⟩ : Src (Deriv K)), z)) ++ ((⟨d, false⟩ : Src (Deriv K)), p.2.1) :: p.2.2.map fun z => ((⟨old, true⟩ : Src (Deriv K)), z)

/-- `new` is `old` with `d` added -/
structure Grow (old new d : DChart K) : Prop where
  ok_old : OkC old
  ok_new : OkC new
  ok_d : OkC d
  mem : ∀ e, e ∈ new ↔ e ∈ old ∨ e ∈ d
  disj : ∀ e, e ∈ old → e ∈ d → False

theorem Grow.append {old d : DChart K} (ho : OkC old) (hd : OkC d) (h : ∀ e, e ∈ old → e ∈ d → False) : Grow old (old ++ d) d where
  ok_old := ho
  ok_d := hd
  ok_new := by
    refine ⟨?_, ?_, ?_⟩
    · intro e he; rcases List.mem_append.1 he with he | he
      · exact ho.ground e he
      · exact hd.ground e he
    · intro e he; rcases List.mem_append.1 he with he | he
      · exact ho.key e he
      · exact hd.key e he
    · rw [List.nodup_append]
      refine ⟨ho.nodup, hd.nodup, ?_⟩
      rintro e he e' he' rfl
      exact h e he he'
  mem := fun e => List.mem_append
  disj := h

theorem W_grow {old new d : DChart K} (g : Grow old new d) {θ : Nat → Tm} {z : BLit K} {k : Deriv K} :
    W θ (⟨new, true⟩, z) k ↔ W θ (⟨old, true⟩, z) k ∨ W θ (⟨d, false⟩, z) k := by
  cases z with
  | val c => simp [W]
  | sub t => exact g.mem _
  | eq x y => simp [W]
  | cmp o x y => simp [W]

theorem W_disj {old new d : DChart K} (g : Grow old new d) {θ θ' : Nat → Tm} {z : BLit K} {k : Deriv K}
    (h1 : W θ (⟨d, false⟩, z) k) (h2 : W θ' (⟨old, true⟩, z) k) : False := by
  cases z with
  | val c => simp [W] at h1
  | sub t =>
    simp only [W] at h1 h2
    have e1 := (g.ok_d.key _ h1).2
    have e2 := (g.ok_old.key _ h2).2
    simp only at e1 e2
    rw [← e1] at h1
    rw [← e2] at h2
    exact g.disj _ h2 h1
  | eq x y => simp [W] at h1
  | cmp o x y => simp [W] at h1

theorem split_old {old new d : DChart K} (g : Grow old new d) {θ θ' : Nat → Tm} {b : List (BLit K)} : ∀ {kids : List (Deriv K)} {p}, p ∈ splits b →
    List.Forall₂ (W θ) (zsB old new d p) kids → List.Forall₂ (W θ') (b.map fun z => ((⟨old, true⟩ : Src (Deriv K)), z)) kids → False := by
  induction b with
  | nil => intro kids p hp; simp [splits] at hp
  | cons z b ih =>
    intro kids p hp h1 h2
    simp only [splits, List.mem_cons, List.mem_map] at hp
    cases h2 with
    | @cons _ k _ ks a1 a2 =>
      rcases hp with rfl | ⟨q, hq, rfl⟩
      · cases h1 with
        | cons b1 b2 => exact W_disj g b1 a1
      · cases h1 with
        | cons b1 b2 => exact ih hq b2 a2

theorem split_iff {old new d : DChart K} (g : Grow old new d) {θ : Nat → Tm} {b : List (BLit K)} : ∀ {kids : List (Deriv K)},
    (∃ p ∈ splits b, List.Forall₂ (W θ) (zsB old new d p) kids) ↔
      List.Forall₂ (W θ) (b.map fun z => ((⟨new, true⟩ : Src (Deriv K)), z)) kids ∧
      ¬ List.Forall₂ (W θ) (b.map fun z => ((⟨old, true⟩ : Src (Deriv K)), z)) kids := by
  have up : ∀ {b : List (BLit K)} {kids : List (Deriv K)}, List.Forall₂ (W θ) (b.map fun z => ((⟨old, true⟩ : Src (Deriv K)), z)) kids →
      List.Forall₂ (W θ) (b.map fun z => ((⟨new, true⟩ : Src (Deriv K)), z)) kids := by
    intro b
    induction b with
    | nil => intro kids h; cases h; exact .nil
    | cons z b ih => intro kids h; cases h with | cons h1 h2 => exact .cons ((W_grow g).2 (.inl h1)) (ih h2)
  induction b with
  | nil =>
    intro kids
    simp only [splits, List.not_mem_nil, false_and, exists_false, List.map_nil, false_iff]
    rintro ⟨h, h'⟩; exact h' h
  | cons z b ih =>
    intro kids
    constructor
    · rintro ⟨p, hp, h⟩
      refine ⟨?_, fun h' => split_old g hp h h'⟩
      simp only [splits, List.mem_cons, List.mem_map] at hp
      rcases hp with rfl | ⟨q, hq, rfl⟩
      · cases h with | cons h1 h2 => exact .cons ((W_grow g).2 (.inr h1)) (up h2)
      · cases h with | cons h1 h2 => exact .cons h1 (ih.1 ⟨q, hq, h2⟩).1
    · rintro ⟨h1, h2⟩
      cases h1 with
      | @cons _ k _ ks a1 a2 =>
        by_cases ho : List.Forall₂ (W θ) (b.map fun z => ((⟨old, true⟩ : Src (Deriv K)), z)) ks
        · have : ¬ W θ (⟨old, true⟩, z) k := fun h => h2 (.cons h ho)
          exact ⟨([], z, b), by simp [splits], .cons (((W_grow g).1 a1).resolve_left this) ho⟩
        · obtain ⟨q, hq, h⟩ := ih.2 ⟨a2, ho⟩
          exact ⟨(z :: q.1, q.2.1, q.2.2), by simp [splits]; exact hq, .cons a1 h⟩

theorem split_pairwise {old new d : DChart K} (g : Grow old new d) {r : SRule K} {i : Nat} :
    (splits r.body).Pairwise fun p p' => ∀ e, Fired r i (zsB old new d p) e → Fired r i (zsB old new d p') e → False := by
  have key : ∀ b : List (BLit K), (splits b).Pairwise fun p p' => ∀ θ θ' kids, List.Forall₂ (W θ) (zsB old new d p) kids →
      List.Forall₂ (W θ') (zsB old new d p') kids → False := by
    intro b
    induction b with
    | nil => simp [splits]
    | cons z b ih =>
      rw [splits, List.pairwise_cons, List.pairwise_map]
      constructor
      · intro p' hp' θ θ' kids h1 h2
        obtain ⟨q, hq, rfl⟩ := List.mem_map.1 hp'
        cases h1 with
        | cons a1 a2 => cases h2 with
          | cons b1 b2 => exact split_old g hq b2 a2
      · refine ih.imp fun h θ θ' kids h1 h2 => ?_
        cases h1 with
        | cons a1 a2 => cases h2 with
          | cons b1 b2 => exact h θ θ' _ a2 b2
  refine (key r.body).imp fun h e h1 h2 => ?_
  obtain ⟨θ, _, kids, a, rfl⟩ := h1
  obtain ⟨θ', _, kids', a', e⟩ := h2
  simp only [Prod.mk.injEq, Deriv.node.injEq, true_and] at e
  obtain ⟨_, _, rfl⟩ := e
  exact h θ θ' _ a a'

/-- the results of a split, back in the order of the body -/
def arrange (n : Nat) (vs : List (Deriv K)) : List (Deriv K) := (vs.drop 1).take n ++ vs.take 1 ++ (vs.drop 1).drop n

theorem forall₂_split {α β : Type} {R : α → β → Prop} {A B : List α} : ∀ {ws : List β},
    List.Forall₂ R (A ++ B) ws ↔ ∃ u v, ws = u ++ v ∧ List.Forall₂ R A u ∧ List.Forall₂ R B v := by
  induction A with
  | nil =>
    intro ws
    constructor
    · intro h; exact ⟨[], ws, rfl, .nil, h⟩
    · rintro ⟨u, v, rfl, hu, hv⟩; cases hu; exact hv
  | cons a A ih =>
    intro ws
    constructor
    · intro h
      cases h with
      | @cons _ w _ ws h1 h2 =>
        obtain ⟨u, v, rfl, hu, hv⟩ := ih.1 h2
        exact ⟨w :: u, v, rfl, .cons h1 hu, hv⟩
    · rintro ⟨u, v, rfl, hu, hv⟩
      cases hu with
      | cons h1 h2 => exact .cons h1 (ih.2 ⟨_, v, rfl, h2, hv⟩)

theorem arrange_cons {n : Nat} {w : Deriv K} {u v : List (Deriv K)} (h : u.length = n) : arrange n (w :: (u ++ v)) = u ++ w :: v := by
  subst h; simp [arrange]

theorem arrange_iff {R : Src (Deriv K) × BLit K → Deriv K → Prop} {A B : List (Src (Deriv K) × BLit K)} {z} {ws : List (Deriv K)} {n : Nat}
    (hn : A.length = n) :
    List.Forall₂ R (A ++ z :: B) ws ↔ ∃ vs, List.Forall₂ R (z :: (A ++ B)) vs ∧ arrange n vs = ws := by
  constructor
  · intro h
    obtain ⟨u, v, rfl, hu, hv⟩ := forall₂_split.1 h
    cases hv with
    | @cons _ w _ v h1 h2 =>
      exact ⟨w :: (u ++ v), .cons h1 (forall₂_split.2 ⟨u, v, rfl, hu, h2⟩), arrange_cons (by rw [← hn, hu.length_eq])⟩
  · rintro ⟨vs, h, rfl⟩
    cases h with
    | @cons _ w _ vs h1 h2 =>
      obtain ⟨u, v, rfl, hu, hv⟩ := forall₂_split.1 h2
      rw [arrange_cons (by rw [← hn, hu.length_eq])]
      exact forall₂_split.2 ⟨u, w :: v, rfl, hu, .cons h1 hv⟩

theorem arrange_inj {n m : Nat} {vs vs' : List (Deriv K)} (h : vs.length = m + 1) (h' : vs'.length = m + 1) (hn : n ≤ m)
    (e : arrange n vs = arrange n vs') : vs = vs' := by
  cases vs with
  | nil => simp at h
  | cons w vs => cases vs' with
    | nil => simp at h'
    | cons w' vs' =>
      rw [← List.take_append_drop n vs, ← List.take_append_drop n vs'] at e ⊢
      simp only [List.length_cons, Nat.add_right_cancel_iff] at h h'
      have l1 : (vs.take n).length = n := by simp; omega
      have l2 : (vs'.take n).length = n := by simp; omega
      rw [arrange_cons l1, arrange_cons l2] at e
      obtain ⟨e1, e2⟩ := List.append_inj e (by rw [l1, l2])
      simp only [List.cons.injEq] at e2
      rw [e1, e2.1, e2.2]

/-- the firings of one rule for one split, given the yields of the driver -/
theorem drive_lists {f : Nat} {old new d : DChart K} (g : Grow old new d) {r : SRule K} (hr : Safe r) {i : Nat} {p} (hp : p ∈ splits r.body)
    {L1 : List (Deriv K × Heap)} (hL1 : Yields1 (K := K) .const noHeap (⟨d, false⟩, p.2.1) L1) {s s' : DChart K}
    (hr1 : RunCalls (fun b => joinD f ⟨new, true⟩ p.1 fun L => joinD f ⟨old, true⟩ p.2.2 fun R => addRaw f r i (L ++ [b] ++ R)) L1 s s') :
    ∃ M, s' = s ++ M ∧ M.Nodup ∧ ∀ e, e ∈ M ↔ Fired r i (zsB old new d p) e := by
  obtain ⟨_, f2, f3⟩ := Naive.split_fn hr hp
  have hbody := mem_splits hp
  set inner : List (Deriv K) → Body (DChart K) := fun a => joinD f ⟨new, true⟩ p.1 fun L =>
      joinD f ⟨old, true⟩ p.2.2 fun R => addRaw f r i (L ++ a ++ R) with hin
  have hr1' : RunCalls inner (L1.map fun p => ([p.1], p.2)) s s' := Solver.RunCalls.map (k := inner) (g := fun b => [b]) hr1
  obtain ⟨L, hL, hrun⟩ := yields_bind (zs' := p.1.map (fun z => ((⟨new, true⟩ : Src (Deriv K)), z)) ++ p.2.2.map fun z => ((⟨old, true⟩ : Src (Deriv K)), z))
    (k := fun a ws => addRaw f r i (ws.take p.1.length ++ a ++ ws.drop p.1.length)) (by
      intro a h1 s s1 g1 e1
      obtain ⟨L2, hL2, hr2⟩ := joinD_spec (g.ok_new.src true) f2 (fun _ => joinD_restores fun _ => addRaw_restores) g1 e1
      have := yields_bind (k := fun a' ws => addRaw f r i (a' ++ a ++ ws)) (zs' := p.2.2.map fun z => ((⟨old, true⟩ : Src (Deriv K)), z))
        (inner := fun vs => joinD f ⟨old, true⟩ p.2.2 fun R => addRaw f r i (vs ++ a ++ R)) (by
          intro a' h1 s s1 g1 e1
          exact joinD_spec (g.ok_old.src true) f3 (fun _ => addRaw_restores) g1 e1) L2 s s1 hL2 hr2
      simpa using this) _ s s' hL1.list hr1'
  refine fired_list hr (zsB := zsB old new d p) (arr := arrange p.1.length) ?_ ?_ ?_ ?_ ?_ hL hrun ?_
  · conv_rhs => rw [hbody]
    simp [zsB, Function.comp_def]
  · simp only [List.singleton_append, zsB]; exact List.perm_middle.symm
  · intro q hq
    simp only [zsB, List.mem_append, List.mem_cons, List.mem_map] at hq
    rcases hq with ⟨z, _, rfl⟩ | rfl | ⟨z, _, rfl⟩
    · exact g.ok_new
    · exact g.ok_d
    · exact g.ok_old
  · intro θ ws
    exact arrange_iff (by simp)
  · intro vs vs' h1 h2 e
    exact arrange_inj (m := p.1.length + p.2.2.length) (by simpa [Nat.add_comm, Nat.add_left_comm] using h1)
      (by simpa [Nat.add_comm, Nat.add_left_comm] using h2) (by omega) e
  · intro q hq s s' e
    have hlen := (hL.sound q hq _ (hL.good q hq).respects_res).2.length_eq
    refine addRaw_call ?_ (h' := q.2) (f := f) ?_
    · rw [hbody]
      simp only [List.length_append, List.length_cons, List.length_nil, List.length_map] at hlen
      simp only [arrange, List.length_append, List.length_cons, List.length_take, List.length_drop]
      omega
    · simpa [arrange] using e

theorem fired_next {rules : List (SRule K)} {old new d : DChart K} (g : Grow old new d) {e : Tm × Deriv K} :
    (∃ q ∈ rules.zipIdx, ∃ p ∈ splits q.1.body, Fired q.1 q.2 (zsB old new d p) e) ↔ Next rules new e ∧ ¬ Next rules old e := by
  constructor
  · rintro ⟨⟨r, i⟩, hq, p, hp, θ, hθ, kids, hW, rfl⟩
    obtain ⟨h1, h2⟩ := (split_iff g).1 ⟨p, hp, hW⟩
    obtain ⟨hF, hin⟩ := (W_chartL g.ok_new).1 h1
    refine ⟨⟨i, kids, rfl, ⟨r, θ, List.mem_zipIdx_iff_getElem?.1 hq, hθ, rfl, hF⟩, hin⟩, ?_⟩
    rintro ⟨i', kids', e1, _, hin'⟩
    simp only [Deriv.node.injEq] at e1
    obtain ⟨rfl, _, rfl⟩ := e1
    exact h2 ((W_chartL g.ok_old).2 ⟨hF, hin'⟩)
  · rintro ⟨⟨i, kids, e1, ⟨r, θ, hi, hθ, e2, hF⟩, hin⟩, hno⟩
    have h2 : ¬ List.Forall₂ (W θ) (r.body.map fun z => ((⟨old, true⟩ : Src (Deriv K)), z)) kids := by
      intro h
      exact hno ⟨i, kids, e1, ⟨r, θ, hi, hθ, e2, hF⟩, ((W_chartL g.ok_old).1 h).2⟩
    obtain ⟨p, hp, hW⟩ := (split_iff g).2 ⟨(W_chartL g.ok_new).2 ⟨hF, hin⟩, h2⟩
    refine ⟨(r, i), List.mem_zipIdx_iff_getElem?.2 hi, p, hp, θ, hθ, kids, hW, ?_⟩
    obtain ⟨x, d⟩ := e
    simp only at e1 e2 ⊢
    rw [e1, e2]

/-- `seminaive_update` lists exactly the trees over the new chart that are not trees over the old one -/
theorem driveD_exact {rules : List (SRule K)} (hr : ∀ r ∈ rules, Safe r) {f : Nat} {old new d : DChart K} (g : Grow old new d) {s s' : DChart K} {h' : Heap}
    (e : driveD rules f old new d noHeap s = some (h', s', .done)) :
    ∃ M, s' = s ++ M ∧ M.Nodup ∧ ∀ e, e ∈ M ↔ Next rules new e ∧ ¬ Next rules old e := by
  unfold driveD at e
  have hrest : ∀ (q : SRule K × Nat) (p : List (BLit K) × BLit K × List (BLit K)), Restores (lookupVals f .const ⟨d, false⟩ p.2.1 fun b =>
      joinD f ⟨new, true⟩ p.1 fun L => joinD f ⟨old, true⟩ p.2.2 fun R => addRaw f q.1 q.2 (L ++ [b] ++ R)) :=
    fun q p => lookupVals_restores fun _ => joinD_restores fun _ => joinD_restores fun _ => addRaw_restores
  obtain ⟨M, h1, h2, h3⟩ := forEach_lists (P := fun q e => ∃ p ∈ splits q.1.body, Fired q.1 q.2 (zsB old new d p) e)
    (fun q => forEach_restores (hrest q) _) (by
      intro q hq
      have hrs : Safe q.1 := hr _ (List.fst_mem_of_mem_zipIdx hq)
      refine forEach_lists (hrest q) ?_ (split_pairwise g)
      intro p hp s h' s' e
      obtain ⟨f1, _, _⟩ := Naive.split_fn hrs hp
      obtain ⟨L1, hL1, hr1⟩ := lookup_spec (g.ok_d.src false) f1 (fun b => joinD_restores fun _ => joinD_restores fun _ => addRaw_restores) good_noHeap e
      exact drive_lists g hrs hp hL1 hr1)
    ((zipIdx_pairwise rules).imp fun h e h1 h2 => by
      obtain ⟨p, _, h1⟩ := h1
      obtain ⟨p', _, h2⟩ := h2
      exact h (fired_index h1 h2)) _ _ _ e
  exact ⟨M, h1, h2, fun e => (h3 e).trans (fired_next g)⟩

/-- the same for one popped derivation -/
theorem agLoops_exact {rules : List (SRule K)} (hr : ∀ r ∈ rules, Safe r) {f : Nat} {old new : DChart K} {u : Tm} {v : Deriv K} (g : Grow old new [(u, v)])
    {s s' : DChart K} {h' : Heap} (e : agLoops rules f old new u v noHeap s = some (h', s', .done)) :
    ∃ M, s' = s ++ M ∧ M.Nodup ∧ ∀ e, e ∈ M ↔ Next rules new e ∧ ¬ Next rules old e := by
  have hu : Ground u := g.ok_d.ground _ (List.mem_singleton.2 rfl)
  unfold agLoops at e
  have hrest : ∀ (q : SRule K × Nat) (p : List (BLit K) × BLit K × List (BLit K)), Restores (fun h (s : DChart K) => match p.2.1 with
    | .sub t => unifyF f u t (joinD f ⟨new, true⟩ p.1 fun L => joinD f ⟨old, true⟩ p.2.2 fun R =>
        addRaw f q.1 q.2 (L ++ [v] ++ R)) h s
    | _ => some (h, s, .done)) := by
    intro r p h q h' q' sig e
    simp only at e
    split at e
    · exact C03_no_trace f _ _ (joinD_restores fun _ => joinD_restores fun _ => addRaw_restores) _ _ _ _ _ e
    · simp only [Option.some.injEq, Prod.mk.injEq] at e; exact e.1.symm
  obtain ⟨M, h1, h2, h3⟩ := forEach_lists (P := fun q e => ∃ p ∈ splits q.1.body, Fired q.1 q.2 (zsB old new [(u, v)] p) e)
    (fun q => forEach_restores (hrest q) _) (by
      intro q hq
      have hrs : Safe q.1 := hr _ (List.fst_mem_of_mem_zipIdx hq)
      refine forEach_lists (hrest q) ?_ (split_pairwise g)
      intro p hp s h' s' e
      simp only at e
      split at e
      · rename_i t ht
        obtain ⟨hh, hu2⟩ := unify_done good_noHeap (joinD_restores fun _ => joinD_restores fun _ => addRaw_restores) e
        have hkey : ∃ L1, Yields1 (K := K) .const noHeap (⟨[(u, v)], false⟩, p.2.1) L1 ∧
            RunCalls (fun b => joinD f ⟨new, true⟩ p.1 fun L => joinD f ⟨old, true⟩ p.2.2 fun R => addRaw f q.1 q.2 (L ++ [b] ++ R)) L1 s s' := by
          rw [ht]
          rcases hu2 with ⟨hf, rfl⟩ | ⟨h1, g1, g2, e⟩
          · refine ⟨[], ⟨by simp, by simp, ?_, by simp⟩, .nil _⟩
            rintro τ b hτ hmem
            simp only [Sat1, List.mem_singleton, Prod.mk.injEq] at hmem
            exact absurd (by rw [hmem.1, Chart.sub_ground hu]) (hf τ hτ)
          · refine ⟨[(v, h1)], ⟨by simp [g1], ?_, ?_, by simp⟩, .cons e (.nil _)⟩
            · rintro q hq τ hτ
              simp only [List.mem_singleton] at hq; subst hq
              refine ⟨((g2 τ).1 hτ).1, ?_⟩
              have := ((g2 τ).1 hτ).2
              rw [Chart.sub_ground hu] at this
              simp [Sat1, this]
            · rintro τ b hτ hmem
              simp only [Sat1, List.mem_singleton, Prod.mk.injEq] at hmem
              exact ⟨(v, h1), by simp, (g2 τ).2 ⟨hτ, by rw [hmem.1, Chart.sub_ground hu]⟩, hmem.2.symm⟩
        obtain ⟨L1, hL1, hr1⟩ := hkey
        exact drive_lists g hrs hp hL1 hr1
      · rename_i hne
        simp only [Option.some.injEq, Prod.mk.injEq, and_true] at e
        refine ⟨[], by simp [e.2], by simp, ?_⟩
        intro e
        simp only [List.not_mem_nil, false_iff]
        rintro ⟨θ, _, kids, h, _⟩
        obtain ⟨_, v1, _, _, h2⟩ := forall₂_split.1 h
        cases h2 with
        | cons h3 _ =>
          cases hz : p.2.1 with
          | sub t => exact hne t hz
          | val c => rw [hz] at h3; simp [W] at h3
          | eq x y => rw [hz] at h3; simp [W] at h3
          | cmp o x y => rw [hz] at h3; simp [W] at h3)
    ((zipIdx_pairwise rules).imp fun h e h1 h2 => by
      obtain ⟨p, _, h1⟩ := h1
      obtain ⟨p', _, h2⟩ := h2
      exact h (fired_index h1 h2)) _ _ _ e
  exact ⟨M, h1, h2, fun e => (h3 e).trans (fired_next g)⟩

/-! ### Property C30: the enumerators by height -/

/-- the derivations of height at most `t`, under their items -/
def UpTo (rules : List (SRule K)) (t : Nat) (e : Tm × Deriv K) : Prop := IsDeriv rules e.1 e.2 ∧ height e.2 ≤ t

theorem upTo_zero {rules : List (SRule K)} {e : Tm × Deriv K} : ¬ UpTo rules 0 e := by
  rintro ⟨⟨h1, _⟩, h2⟩
  obtain ⟨x, d⟩ := e
  cases d with
  | const k => simp [base] at h1
  | bi x y => simp [base] at h1
  | node i x kids => simp [height] at h2

theorem UpTo.mono {rules : List (SRule K)} {t t' : Nat} (h : t ≤ t') {e : Tm × Deriv K} (h1 : UpTo rules t e) : UpTo rules t' e :=
  ⟨h1.1, le_trans h1.2 h⟩

theorem isDeriv_next {rules : List (SRule K)} {x : Tm} {d : Deriv K} :
    IsDeriv rules x d ↔ ∃ i kids, d = .node i x kids ∧ Top rules i x kids ∧ ∀ k ∈ kids, k.base = false → IsDeriv rules (item k) k := by
  constructor
  · rintro ⟨h1, h2, h3⟩
    cases d with
    | const k => simp [base] at h1
    | bi x y => simp [base] at h1
    | node i y kids =>
      simp only [item] at h2
      subst h2
      rw [Valid, validL_iff] at h3
      exact ⟨i, kids, rfl, h3.1, fun k hk hb => ⟨hb, rfl, h3.2 k hk⟩⟩
  · rintro ⟨i, kids, rfl, h1, h2⟩
    refine ⟨rfl, rfl, ?_⟩
    rw [Valid, validL_iff]
    refine ⟨h1, fun k hk => ?_⟩
    cases hb : k.base with
    | false => exact (h2 k hk hb).2.2
    | true => cases k with
      | const c => simp [Valid]
      | bi x y => simp [Valid]
      | node i x kids => simp [base] at hb

theorem next_upTo {rules : List (SRule K)} {C : DChart K} {t : Nat} (hC : ∀ e, e ∈ C ↔ UpTo rules t e) {e : Tm × Deriv K} :
    Next rules C e ↔ UpTo rules (t + 1) e := by
  have hbase : ∀ k : Deriv K, k.base = true → height k = 0 := by
    intro k hk
    cases k with
    | const c => simp [height]
    | bi x y => simp [height]
    | node i x kids => simp [base] at hk
  unfold UpTo
  rw [isDeriv_next]
  constructor
  · rintro ⟨i, kids, e1, h1, h2⟩
    refine ⟨⟨i, kids, e1, h1, fun k hk hb => ((hC _).1 (h2 k hk hb)).1⟩, ?_⟩
    rw [e1, height_node]
    intro k hk
    cases hb : k.base with
    | true => rw [hbase k hb]; omega
    | false => exact ((hC _).1 (h2 k hk hb)).2
  · rintro ⟨⟨i, kids, e1, h1, h2⟩, h3⟩
    rw [e1, height_node] at h3
    exact ⟨i, kids, e1, h1, fun k hk hb => (hC _).2 ⟨h2 k hk hb, h3 k hk⟩⟩

theorem next_ok {rules : List (SRule K)} {C C' : DChart K} (hn : C'.Nodup) (h : ∀ e ∈ C', Next rules C e) : OkC C' := by
  refine ⟨?_, ?_, hn⟩
  · intro e he
    obtain ⟨i, kids, _, ⟨r, θ, _, hθ, h3, _⟩, _⟩ := h e he
    rw [h3]
    exact Solver.ground_sub fun n hn => hθ.1 n (.inl hn)
  · intro e he
    obtain ⟨i, kids, h1, _⟩ := h e he
    rw [h1]
    exact ⟨rfl, rfl⟩

theorem Next.mono {rules : List (SRule K)} {C C' : DChart K} (h : ∀ e ∈ C, e ∈ C') {e : Tm × Deriv K} (h1 : Next rules C e) : Next rules C' e := by
  obtain ⟨i, kids, e1, ht, hk⟩ := h1
  exact ⟨i, kids, e1, ht, fun k hm hb => h _ (hk k hm hb)⟩

theorem upTo_succ {rules : List (SRule K)} {t t' : Nat} (h : ∀ e, UpTo rules t e ↔ UpTo rules t' e) (e : Tm × Deriv K) :
    UpTo rules (t + 1) e ↔ UpTo rules (t' + 1) e := by
  have hbase : ∀ k : Deriv K, k.base = true → height k = 0 := by
    intro k hk
    cases k with
    | const c => simp [height]
    | bi x y => simp [height]
    | node i x kids => simp [base] at hk
  have key : ∀ t t', (∀ e, UpTo rules t e ↔ UpTo rules t' e) → UpTo rules (t + 1) e → UpTo rules (t' + 1) e := by
    rintro t t' h ⟨h1, h2⟩
    refine ⟨h1, ?_⟩
    obtain ⟨i, kids, e1, _, h4⟩ := isDeriv_next.1 h1
    rw [e1, height_node] at h2 ⊢
    intro k hk
    cases hb : k.base with
    | true => rw [hbase k hb]; omega
    | false => exact ((h (item k, k)).1 ⟨h4 k hk hb, h2 k hk⟩).2
  exact ⟨key t t' h, key t' t fun e => (h e).symm⟩

theorem upTo_stable {rules : List (SRule K)} {t : Nat} (h : ∀ e, UpTo rules (t + 1) e ↔ UpTo rules t e) :
    ∀ n, t ≤ n → ∀ e, UpTo rules n e ↔ UpTo rules t e := by
  intro n hn
  induction n, hn using Nat.le_induction with
  | base => intro e; rfl
  | succ n hn ih => intro e; rw [upTo_succ ih, h]

theorem naiveD_exact {rules : List (SRule K)} (hr : ∀ r ∈ rules, Safe r) {f : Nat} : ∀ (T t : Nat) (x C : DChart K), OkC x →
    (∀ e, e ∈ x ↔ UpTo rules t e) → naiveD rules f T x = some (C, .done) → C.Nodup ∧ ∀ e, e ∈ C ↔ UpTo rules (t + T) e := by
  intro T
  induction T with
  | zero =>
    intro t x C hx hm e
    simp only [naiveD, Option.some.injEq, Prod.mk.injEq, and_true] at e
    subst e
    exact ⟨hx.nodup, hm⟩
  | succ T ih =>
    intro t x C hx hm e
    rw [naiveD] at e
    split at e
    · simp at e
    · rename_i x1 e1
      obtain ⟨h1, h2⟩ := stepD_exact hr hx e1
      have h3 : ∀ e, e ∈ x1 ↔ UpTo rules (t + 1) e := fun e => (h2 e).trans (next_upTo hm)
      split at e
      · rename_i hlen
        simp only [Option.some.injEq, Prod.mk.injEq, and_true] at e
        subst e
        refine ⟨hx.nodup, fun e => ?_⟩
        have hsub : x ⊆ x1 := fun e he => (h3 e).2 (((hm e).1 he).mono (by omega))
        have hperm : x.Perm x1 := (List.subperm_of_subset hx.nodup hsub).perm_of_length_le (by omega)
        rw [hm, upTo_stable (t := t) (fun e => by rw [← h3, ← hm, hperm.mem_iff]) (t + (T + 1)) (by omega)]
      · rw [show t + (T + 1) = (t + 1) + T from by omega]
        exact ih (t + 1) x1 C (next_ok h1 fun e he => (h2 e).1 he) h3 e
    · rename_i hne _
      exact absurd e (fun h => by
        simp only [Option.some.injEq, Prod.mk.injEq] at h
        first | exact hne _ (by rw [h]) | exact (hne h).elim | (rename_i r _; subst h; exact hne _ rfl))

/-- The `T`-round naive enumerator lists exactly the derivations of height at most `T`, each once. -/
theorem C30_naive {rules : List (SRule K)} (hr : ∀ r ∈ rules, Safe r) {f T : Nat} {C : DChart K} (e : naiveD rules f T [] = some (C, .done)) :
    C.Nodup ∧ ∀ x d, (x, d) ∈ C ↔ IsDeriv rules x d ∧ height d ≤ T := by
  obtain ⟨h1, h2⟩ := naiveD_exact hr T 0 [] C OkC.nil (by simp [upTo_zero]) e
  refine ⟨h1, fun x d => ?_⟩
  rw [h2, Nat.zero_add]; rfl

theorem semiD_exact {rules : List (SRule K)} (hr : ∀ r ∈ rules, Safe r) {f : Nat} : ∀ (T t : Nat) (m d C : DChart K), OkC m → OkC d →
    (∀ e, e ∈ m ↔ UpTo rules t e) → (∀ e, e ∈ d ↔ UpTo rules (t + 1) e ∧ ¬ UpTo rules t e) → semiD rules f T m d = some (C, .done) →
    C.Nodup ∧ ∀ e, e ∈ C ↔ UpTo rules (t + T) e := by
  intro T
  induction T with
  | zero =>
    intro t m d C hm hd h1 h2 e
    simp only [semiD, Option.some.injEq, Prod.mk.injEq, and_true] at e
    subst e
    exact ⟨hm.nodup, h1⟩
  | succ T ih =>
    intro t m d C hm hd h1 h2 e
    rw [semiD] at e
    have g : Grow m (m ++ d) d := Grow.append hm hd fun e h3 h4 => ((h2 e).1 h4).2 ((h1 e).1 h3)
    have h5 : ∀ e, e ∈ m ++ d ↔ UpTo rules (t + 1) e := by
      intro e
      rw [List.mem_append, h1, h2]
      constructor
      · rintro (h | h)
        · exact h.mono (by omega)
        · exact h.1
      · intro h
        by_cases h' : UpTo rules t e
        · exact .inl h'
        · exact .inr ⟨h, h'⟩
    split at e
    · simp at e
    · rename_i h' d' e1
      obtain ⟨M, hM, hn, hmem⟩ := driveD_exact hr g e1
      simp only [List.nil_append] at hM
      subst hM
      have h6 : ∀ e, e ∈ d' ↔ UpTo rules (t + 1 + 1) e ∧ ¬ UpTo rules (t + 1) e := fun e => by
        rw [hmem, next_upTo h5, next_upTo h1]
      split at e
      · rename_i hemp
        simp only [Option.some.injEq, Prod.mk.injEq, and_true] at e
        subst e
        refine ⟨g.ok_new.nodup, fun e => ?_⟩
        rw [h5, upTo_stable (t := t + 1) (fun e => ⟨fun h => ?_, fun h => h.mono (by omega)⟩) (t + (T + 1)) (by omega)]
        by_contra hno
        have := (h6 e).2 ⟨h, hno⟩
        rw [List.isEmpty_iff.1 hemp] at this
        simp at this
      · rw [show t + (T + 1) = (t + 1) + T from by omega]
        exact ih (t + 1) (m ++ d) d' C g.ok_new (next_ok hn fun e he => ((hmem e).1 he).1) h5 h6 e
    · rename_i hne _
      simp only [Option.some.injEq, Prod.mk.injEq] at e
      first | exact (hne _ _ (by rw [e.2])).elim | exact (hne e.2).elim

/-- The `T`-round semi-naive enumerator, when it does not raise, lists exactly the derivations of height at most
`T`, each once. -/
theorem C30_seminaive {rules : List (SRule K)} (hr : ∀ r ∈ rules, Safe r) {f T : Nat} {C : DChart K} (e : seminaiveD rules f T = some (C, .done)) :
    C.Nodup ∧ ∀ x d, (x, d) ∈ C ↔ IsDeriv rules x d ∧ height d ≤ T := by
  unfold seminaiveD at e
  split at e
  · simp at e
  · rename_i d e1
    obtain ⟨h1, h2⟩ := stepD_exact hr OkC.nil e1
    have h0 : ∀ e, e ∈ ([] : DChart K) ↔ UpTo rules 0 e := by simp [upTo_zero]
    obtain ⟨h3, h4⟩ := semiD_exact hr T 0 [] d C OkC.nil (next_ok h1 fun e he => (h2 e).1 he) h0
      (fun e => by rw [h2, next_upTo h0]; simp [upTo_zero]) e
    refine ⟨h3, fun x d => ?_⟩
    rw [h4, Nat.zero_add]; rfl
  · rename_i hne _
    simp only [Option.some.injEq] at e
    first | exact (hne _ (by rw [e])).elim | (subst e; exact (hne _ rfl).elim)

/-- So the two enumerators list the same derivations. -/
theorem C30_agree {rules : List (SRule K)} (hr : ∀ r ∈ rules, Safe r) {f f' T : Nat} {C C' : DChart K} (e : naiveD rules f T [] = some (C, .done))
    (e' : seminaiveD rules f' T = some (C', .done)) : C.Perm C' := by
  obtain ⟨h1, h2⟩ := C30_naive hr e
  obtain ⟨h3, h4⟩ := C30_seminaive hr e'
  exact (List.perm_ext_iff_of_nodup h1 h3).2 fun p => by rw [show p = (p.1, p.2) from rfl, h2, h4]

/-! ### Property C31: the agenda enumerator -/

/-- the reachable states -/
inductive AgRunD (rules : List (SRule K)) : AgD K → Prop
  | init {st} : AgInitD rules st → AgRunD rules st
  | step {st st'} : AgRunD rules st → AgStepD rules st st' → AgRunD rules st'

structure AgInvD (rules : List (SRule K)) (st : AgD K) : Prop where
  same : st.old = st.new
  out : st.out = st.new.map Prod.snd
  nodup : (st.new ++ st.change).Nodup
  mem : ∀ e, e ∈ st.new ++ st.change ↔ Next rules st.new e
  valid : ∀ e ∈ st.new ++ st.change, IsDeriv rules e.1 e.2

theorem AgInvD.ok {rules : List (SRule K)} {st : AgD K} (h : AgInvD rules st) : OkC (st.new ++ st.change) :=
  next_ok h.nodup fun e he => (h.mem e).1 he

theorem next_isDeriv {rules : List (SRule K)} {C : DChart K} (hC : ∀ e ∈ C, IsDeriv rules e.1 e.2) {e : Tm × Deriv K} (h : Next rules C e) :
    IsDeriv rules e.1 e.2 := by
  obtain ⟨i, kids, e1, ht, hk⟩ := h
  exact isDeriv_next.2 ⟨i, kids, e1, ht, fun k hm hb => hC _ (hk k hm hb)⟩

theorem agStep_grow {rules : List (SRule K)} {st : AgD K} (h : AgInvD rules st) {u : Tm} {v : Deriv K} {change : DChart K} (hc : st.change = (u, v) :: change) :
    Grow st.old (st.new ++ [(u, v)]) [(u, v)] := by
  have hok := h.ok
  rw [hc] at hok
  rw [h.same]
  refine Grow.append ?_ ?_ ?_
  · exact ⟨fun e he => hok.ground e (by simp [he]), fun e he => hok.key e (by simp [he]), (List.nodup_append.1 hok.nodup).1⟩
  · exact ⟨fun e he => hok.ground e (by simp at he; simp [he]), fun e he => hok.key e (by simp at he; simp [he]), by simp⟩
  · intro e h1 h2
    simp only [List.mem_singleton] at h2
    exact (List.nodup_append.1 hok.nodup).2.2 e h1 (u, v) (by simp) h2

theorem agStep_popped {rules : List (SRule K)} {st st' : AgD K} (h : AgStepD rules st st') :
    ∃ u v c, st.change = (u, v) :: c ∧ st'.out = st.out ++ [v] := by
  obtain ⟨f, e⟩ := h
  unfold agStepD at e
  split at e
  · simp at e
  · rename_i u v c hc
    simp only at e
    split at e
    · simp at e
    · simp only [Option.some.injEq, Prod.mk.injEq, and_true] at e
      exact ⟨u, v, c, hc, by rw [← e]⟩
    · rename_i hne _
      simp only [Option.some.injEq, Prod.mk.injEq] at e
      first | exact (hne _ _ (by rw [e.2])).elim | exact (hne e.2).elim

theorem agStep_inv {rules : List (SRule K)} (hr : ∀ r ∈ rules, Safe r) {st st' : AgD K} (h : AgInvD rules st) (hs : AgStepD rules st st') :
    AgInvD rules st' ∧ ∃ e c M, st.change = e :: c ∧ st'.new = st.new ++ [e] ∧ st'.change = c ++ M := by
  obtain ⟨f, e⟩ := hs
  unfold agStepD at e
  split at e
  · simp at e
  · rename_i u v c hc
    simp only at e
    have g := agStep_grow h hc
    split at e
    · simp at e
    · rename_i h' c' e1
      simp only [Option.some.injEq, Prod.mk.injEq, and_true] at e
      subst e
      obtain ⟨M, rfl, hn, hmem⟩ := agLoops_exact hr g e1
      have hmem' : ∀ e, e ∈ st.new ++ [(u, v)] ++ (c ++ M) ↔ Next rules (st.new ++ [(u, v)]) e := by
        intro e
        have : e ∈ st.new ++ [(u, v)] ++ (c ++ M) ↔ e ∈ st.new ++ st.change ∨ e ∈ M := by
          rw [hc]; simp only [List.mem_append, List.mem_cons, List.not_mem_nil, or_false]; tauto
        rw [this, h.mem, hmem, h.same]
        constructor
        · rintro (h1 | h1)
          · exact h1.mono fun e he => List.mem_append_left _ he
          · exact h1.1
        · intro h1
          by_cases h2 : Next rules st.new e
          · exact .inl h2
          · exact .inr ⟨h1, h2⟩
      refine ⟨⟨by simp [h.same], by simp [h.out], ?_, hmem', ?_⟩, (u, v), c, M, hc, rfl, rfl⟩
      · have h1 := h.nodup
        rw [hc] at h1
        have : st.new ++ [(u, v)] ++ (c ++ M) = (st.new ++ (u, v) :: c) ++ M := by simp
        simp only
        rw [this, List.nodup_append]
        refine ⟨h1, hn, ?_⟩
        rintro e he e' he' rfl
        refine ((hmem e).1 he').2 ?_
        rw [h.same]
        exact (h.mem e).1 (by rw [hc]; exact he)
      · intro e he
        refine next_isDeriv (C := st.new ++ [(u, v)]) ?_ ((hmem' e).1 he)
        intro e he
        refine h.valid e ?_
        rw [hc]
        simp only [List.mem_append, List.mem_cons, List.not_mem_nil, or_false] at he ⊢
        tauto
    · rename_i hne _
      simp only [Option.some.injEq, Prod.mk.injEq] at e
      first | exact (hne _ _ (by rw [e.2])).elim | exact (hne e.2).elim

theorem agInit_inv {rules : List (SRule K)} (hr : ∀ r ∈ rules, Safe r) {st : AgD K} (h : AgInitD rules st) : AgInvD rules st := by
  obtain ⟨f, c, e, rfl⟩ := h
  obtain ⟨h1, h2⟩ := stepD_exact hr OkC.nil e
  refine ⟨rfl, rfl, by simpa using h1, by simpa using h2, ?_⟩
  intro e he
  exact next_isDeriv (by simp) ((h2 e).1 (by simpa using he))

theorem agRun_inv {rules : List (SRule K)} (hr : ∀ r ∈ rules, Safe r) {st : AgD K} (h : AgRunD rules st) : AgInvD rules st := by
  induction h with
  | init h => exact agInit_inv hr h
  | step _ hs ih => exact (agStep_inv hr ih hs).1

/-- The agenda enumerator yields only derivations and never yields the same one twice. -/
theorem C31_sound {rules : List (SRule K)} (hr : ∀ r ∈ rules, Safe r) {st : AgD K} (h : AgRunD rules st) :
    st.out.Nodup ∧ ∀ d ∈ st.out, IsDeriv rules (item d) d := by
  have hi := agRun_inv hr h
  rw [hi.out]
  constructor
  · unfold List.Nodup
    rw [List.pairwise_map]
    refine (List.nodup_append.1 hi.nodup).1.imp_of_mem ?_
    intro e e' he he' hne h2
    refine hne (Prod.ext ?_ h2)
    rw [← (hi.ok.key e (by simp [he])).2, ← (hi.ok.key e' (by simp [he'])).2, h2]
  · intro d hd
    obtain ⟨e, he, rfl⟩ := List.mem_map.1 hd
    have := hi.valid e (by simp [he])
    rwa [this.2.1]

/-- every derivation all of whose subtrees are yielded is queued -/
theorem agInv_queued {rules : List (SRule K)} {st : AgD K} (hi : AgInvD rules st) {x : Tm} {i : Nat} {kids : List (Deriv K)}
    (ht : Top rules i x kids) (hk : ∀ k ∈ kids, k.base = false → k ∈ st.out) : (x, Deriv.node i x kids) ∈ st.new ++ st.change := by
  rw [hi.mem]
  refine ⟨i, kids, rfl, ht, fun k hm hb => ?_⟩
  have := hk k hm hb
  rw [hi.out] at this
  obtain ⟨e, he, e2⟩ := List.mem_map.1 this
  have := (hi.ok.key e (by simp [he])).2
  rw [← e2, this]
  exact he

/-- When the agenda enumerator stops, it has yielded every derivation. -/
theorem C31_finished {rules : List (SRule K)} (hr : ∀ r ∈ rules, Safe r) {st : AgD K} (h : AgRunD rules st) (hf : st.change = [])
    {x : Tm} {d : Deriv K} (hd : IsDeriv rules x d) : d ∈ st.out := by
  have hi := agRun_inv hr h
  have key : ∀ n (x : Tm) (d : Deriv K), height d ≤ n → IsDeriv rules x d → d ∈ st.out := by
    intro n
    induction n with
    | zero => intro x d h1 h2; exact absurd ⟨h2, h1⟩ (upTo_zero (e := (x, d)))
    | succ n ih =>
      intro x d h1 h2
      obtain ⟨i, kids, rfl, ht, hk⟩ := isDeriv_next.1 h2
      have := agInv_queued hi ht fun k hm hb => ih _ k (height_node.1 h1 k hm) (hk k hm hb)
      rw [hf, List.append_nil] at this
      rw [hi.out]
      exact List.mem_map.2 ⟨_, this, rfl⟩
  exact key _ x d (le_refl _) hd

/-- In an infinite run of the agenda enumerator every derivation is eventually yielded. -/
theorem C31_fair {rules : List (SRule K)} (hr : ∀ r ∈ rules, Safe r) {σ : Nat → AgD K} (h0 : AgInitD rules (σ 0))
    (hs : ∀ n, AgStepD rules (σ n) (σ (n + 1))) {x : Tm} {d : Deriv K} (hd : IsDeriv rules x d) : ∃ n, d ∈ (σ n).out := by
  have hi : ∀ n, AgInvD rules (σ n) := by
    intro n
    induction n with
    | zero => exact agInit_inv hr h0
    | succ n ih => exact (agStep_inv hr ih (hs n)).1
  have hmono : ∀ n m, n ≤ m → ∀ k, k ∈ (σ n).out → k ∈ (σ m).out := by
    intro n m hm
    induction m, hm using Nat.le_induction with
    | base => exact fun k h => h
    | succ m _ ih =>
      intro k hk
      obtain ⟨_, v, _, _, e⟩ := agStep_popped (hs m)
      rw [e]; exact List.mem_append_left _ (ih k hk)
  have hpop : ∀ j n (e : Tm × Deriv K), (σ n).change[j]? = some e → e.2 ∈ (σ (n + j + 1)).out := by
    intro j
    induction j with
    | zero =>
      intro n e he
      obtain ⟨u, v, c, h1, h2⟩ := agStep_popped (hs n)
      rw [h1] at he
      simp only [List.getElem?_cons_zero, Option.some.injEq] at he
      show e.2 ∈ (σ (n + 1)).out
      rw [h2, ← he]; simp
    | succ j ih =>
      intro n e he
      obtain ⟨e0, c, M, h1, _, h3⟩ := (agStep_inv hr (hi n) (hs n)).2
      rw [h1, List.getElem?_cons_succ] at he
      have := ih (n + 1) e (by
        rw [h3, List.getElem?_append_left]
        · exact he
        · exact (List.getElem?_eq_some_iff.1 he).1)
      rwa [show n + 1 + j + 1 = n + (j + 1) + 1 from by omega] at this
  have key : ∀ t (x : Tm) (d : Deriv K), height d ≤ t → IsDeriv rules x d → ∃ n, d ∈ (σ n).out := by
    intro t
    induction t with
    | zero => intro x d h1 h2; exact absurd ⟨h2, h1⟩ (upTo_zero (e := (x, d)))
    | succ t ih =>
      intro x d h1 h2
      obtain ⟨i, kids, rfl, ht, hk⟩ := isDeriv_next.1 h2
      have hall : ∃ n, ∀ k ∈ kids, k.base = false → k ∈ (σ n).out := by
        have hh := height_node.1 h1
        clear ht h1 h2
        induction kids with
        | nil => exact ⟨0, by simp⟩
        | cons k kids ih' =>
          obtain ⟨n1, hn1⟩ := ih' (fun k hm hb => hk k (by simp [hm]) hb) fun k hm => hh k (by simp [hm])
          cases hb : k.base with
          | true =>
            refine ⟨n1, fun k' hm hb' => ?_⟩
            rcases List.mem_cons.1 hm with rfl | hm
            · rw [hb] at hb'; simp at hb'
            · exact hn1 k' hm hb'
          | false =>
            obtain ⟨n2, hn2⟩ := ih _ k (hh k (by simp)) (hk k (by simp) hb)
            refine ⟨max n1 n2, fun k' hm hb' => ?_⟩
            rcases List.mem_cons.1 hm with rfl | hm
            · exact hmono _ _ (le_max_right _ _) _ hn2
            · exact hmono _ _ (le_max_left _ _) _ (hn1 k' hm hb')
      obtain ⟨n, hn⟩ := hall
      have hq := agInv_queued (hi n) ht hn
      rcases List.mem_append.1 hq with hq | hq
      · exact ⟨n, by rw [(hi n).out]; exact List.mem_map.2 ⟨_, hq, rfl⟩⟩
      · obtain ⟨j, hj⟩ := List.mem_iff_getElem?.1 hq
        exact ⟨_, hpop j n _ hj⟩
  exact key _ x d (le_refl _) hd

/-! ### Property C26: values are sums over derivations -/

/-- the product of the leaves -/
def wt (d : Deriv K) : K := (leaves d).prod

/-- the trees of a chart for one body element -/
def opts (C : DChart K) (θ : Nat → Tm) : BLit K → List (Deriv K)
  | .val k => [.const k]
  | .sub t => (C.filter fun e => decide (e.1 = t.sub θ)).map Prod.snd
  | .eq x y => if x.sub θ = y.sub θ then [.bi (x.sub θ) (y.sub θ)] else []
  | .cmp o x y => if o (x.sub θ) (y.sub θ) = true then [.bi (x.sub θ) (y.sub θ)] else []

/-- the sequences of trees for a body -/
def kidsL (C : DChart K) (θ : Nat → Tm) : List (BLit K) → List (List (Deriv K))
  | [] => [[]]
  | z :: b => (opts C θ z).flatMap fun k => (kidsL C θ b).map (k :: ·)

/-- the sum of the weights of the derivations of `x` in a chart -/
def sumAt (C : DChart K) (x : Tm) : K := (C.map fun e => if e.1 = x then wt e.2 else 0).sum

theorem sum_filter {α : Type} (l : List α) (p : α → Prop) [DecidablePred p] (g : α → K) :
    (l.map fun e => if p e then g e else 0).sum = ((l.filter fun e => decide (p e)).map g).sum := by
  induction l with
  | nil => simp
  | cons a l ih => by_cases h : p a <;> simp [h, ih]

theorem opts_mem {C : DChart K} (hC : OkC C) {θ : Nat → Tm} {z : BLit K} {k : Deriv K} : k ∈ opts C θ z ↔ W θ (⟨C, true⟩, z) k := by
  cases z with
  | val c => simp [opts, W]
  | sub t => simp [opts, W]
  | eq x y => simp only [opts, W, true_and]; split <;> simp_all
  | cmp o x y => simp only [opts, W, true_and]; split <;> simp_all

theorem opts_nodup {C : DChart K} (hC : OkC C) {θ : Nat → Tm} {z : BLit K} : (opts C θ z).Nodup := by
  cases z with
  | val c => simp [opts]
  | sub t =>
    simp only [opts]
    unfold List.Nodup
    rw [List.pairwise_map]
    refine (hC.nodup.filter _).imp_of_mem ?_
    intro e e' he he' hne h2
    simp only [List.mem_filter, decide_eq_true_eq] at he he'
    exact hne (Prod.ext (he.2.trans he'.2.symm) h2)
  | eq x y => simp only [opts]; split <;> simp
  | cmp o x y => simp only [opts]; split <;> simp

theorem opts_sum {C : DChart K} {θ : Nat → Tm} {z : BLit K} : ((opts C θ z).map wt).sum = litVal (sumAt C) θ z := by
  cases z with
  | val c => simp [opts, litVal, wt, leaves]
  | sub t => simp only [opts, litVal, sumAt]; rw [sum_filter, List.map_map]; rfl
  | eq x y => simp only [opts, litVal]; split <;> simp [wt, leaves]
  | cmp o x y => simp only [opts, litVal]; split <;> simp [wt, leaves]

theorem kidsL_mem {C : DChart K} (hC : OkC C) {θ : Nat → Tm} : ∀ {b : List (BLit K)} {ks : List (Deriv K)},
    ks ∈ kidsL C θ b ↔ List.Forall₂ (W θ) (b.map fun z => ((⟨C, true⟩ : Src (Deriv K)), z)) ks := by
  intro b
  induction b with
  | nil =>
    intro ks
    simp only [kidsL, List.mem_singleton, List.map_nil]
    exact ⟨fun h => by rw [h]; exact .nil, fun h => by cases h; rfl⟩
  | cons z b ih =>
    intro ks
    simp only [kidsL, List.mem_flatMap, List.mem_map]
    constructor
    · rintro ⟨k, hk, ks, hks, rfl⟩
      exact .cons ((opts_mem hC).1 hk) (ih.1 hks)
    · intro h
      cases h with
      | @cons _ k _ ks h1 h2 => exact ⟨k, (opts_mem hC).2 h1, ks, ih.2 h2, rfl⟩

theorem kidsL_nodup {C : DChart K} (hC : OkC C) {θ : Nat → Tm} : ∀ {b : List (BLit K)}, (kidsL C θ b).Nodup := by
  intro b
  induction b with
  | nil => simp [kidsL]
  | cons z b ih =>
    rw [kidsL, List.nodup_flatMap]
    refine ⟨fun k _ => ih.map fun a b h => by simpa using h, (opts_nodup hC).imp ?_⟩
    intro k k' hne
    simp only [Function.onFun]
    intro ks h1 h2
    obtain ⟨_, _, rfl⟩ := List.mem_map.1 h1
    obtain ⟨_, _, e⟩ := List.mem_map.1 h2
    simp only [List.cons.injEq] at e
    exact hne e.1.symm

theorem kidsL_sum {C : DChart K} {θ : Nat → Tm} : ∀ {b : List (BLit K)},
    ((kidsL C θ b).map fun ks => (leavesL ks).prod).sum = instVal (sumAt C) b θ := by
  intro b
  induction b with
  | nil => simp [kidsL, leavesL, instVal]
  | cons z b ih =>
    have h1 : instVal (sumAt C) (z :: b) θ = litVal (sumAt C) θ z * instVal (sumAt C) b θ := by simp [instVal]
    rw [h1, ← ih, ← opts_sum, kidsL]
    generalize opts C θ z = os
    generalize kidsL C θ b = kk
    induction os with
    | nil => simp
    | cons k os ih' =>
      simp only [List.flatMap_cons, List.map_append, List.map_map, List.sum_append, List.map_cons, List.sum_cons, add_mul, ih']
      congr 1
      rw [← List.sum_map_mul_left]
      congr 1
      refine List.map_congr_left fun ks _ => ?_
      simp [leavesL, wt]

/-- the instances of a rule with trees in the chart -/
theorem fin_inst {C : DChart K} (hC : OkC C) {r : SRule K} (hr : Safe r) : {θ | θ ∈ GSub r ∧ kidsL C θ r.body ≠ []}.Finite := by
  refine (Solver.sat_finite (chart := C.map fun e => (e.1, (1 : K))) hr.bnd).subset ?_
  rintro θ ⟨h1, h2⟩
  refine ⟨h1, fun z hz => ?_⟩
  obtain ⟨ks, hks⟩ := List.exists_mem_of_ne_nil _ h2
  have := (kidsL_mem hC).1 hks
  obtain ⟨k, _, hk⟩ := forall₂_mem_left this (List.mem_map.2 ⟨z, hz, rfl⟩)
  cases z with
  | val c => exact ⟨c, rfl⟩
  | sub t =>
    simp only [W] at hk
    obtain ⟨v, hv⟩ := (Dict.mem_keys_iff_get (C.map fun e => (e.1, (1 : K))) (t.sub θ)).1 (by
      simp only [Dict.keys, List.map_map, List.mem_map, Function.comp]
      exact ⟨_, hk, rfl⟩)
    exact ⟨v, hv⟩
  | eq x y => exact ⟨1, hk.2.1, rfl⟩
  | cmp o x y => exact ⟨1, hk.2.1, rfl⟩

open Classical in
noncomputable def insts (C : DChart K) (r : SRule K) : List (Nat → Tm) :=
  if h : {θ | θ ∈ GSub r ∧ kidsL C θ r.body ≠ []}.Finite then h.toFinset.toList else []

theorem insts_mem {C : DChart K} (hC : OkC C) {r : SRule K} (hr : Safe r) {θ : Nat → Tm} : θ ∈ insts C r ↔ θ ∈ GSub r ∧ kidsL C θ r.body ≠ [] := by
  rw [insts, dif_pos (fin_inst hC hr)]; simp

theorem insts_nodup {C : DChart K} {r : SRule K} : (insts C r).Nodup := by
  unfold insts
  split
  · exact Finset.nodup_toList _
  · simp

/-- the derivations over a chart -/
noncomputable def nextL (rules : List (SRule K)) (C : DChart K) : DChart K :=
  rules.zipIdx.flatMap fun q => (insts C q.1).flatMap fun θ => (kidsL C θ q.1.body).map fun ks => (q.1.head.sub θ, .node q.2 (q.1.head.sub θ) ks)

theorem nextL_mem {rules : List (SRule K)} (hr : ∀ r ∈ rules, Safe r) {C : DChart K} (hC : OkC C) {e : Tm × Deriv K} :
    e ∈ nextL rules C ↔ Next rules C e := by
  simp only [nextL, List.mem_flatMap, List.mem_map]
  constructor
  · rintro ⟨⟨r, i⟩, hq, θ, hθ, ks, hks, rfl⟩
    have hrs : Safe r := hr _ (List.fst_mem_of_mem_zipIdx hq)
    obtain ⟨hF, hin⟩ := (W_chartL hC).1 ((kidsL_mem hC).1 hks)
    exact ⟨i, ks, rfl, ⟨r, θ, List.mem_zipIdx_iff_getElem?.1 hq, ((insts_mem hC hrs).1 hθ).1, rfl, hF⟩, hin⟩
  · rintro ⟨i, kids, e1, ⟨r, θ, hi, hθ, e2, hF⟩, hin⟩
    have hq : (r, i) ∈ rules.zipIdx := List.mem_zipIdx_iff_getElem?.2 hi
    have hrs : Safe r := hr _ (List.fst_mem_of_mem_zipIdx hq)
    have hks := (kidsL_mem hC).2 ((W_chartL hC).2 ⟨hF, hin⟩)
    refine ⟨(r, i), hq, θ, (insts_mem hC hrs).2 ⟨hθ, List.ne_nil_of_mem hks⟩, kids, hks, ?_⟩
    obtain ⟨x, d⟩ := e
    simp only at e1 e2 ⊢
    rw [e1, e2]

/-- the trees below a node determine the instance of the rule -/
theorem inst_det {C : DChart K} (hC : OkC C) {r : SRule K} (hr : Safe r) {θ θ' : Nat → Tm} (hθ : θ ∈ GSub r) (hθ' : θ' ∈ GSub r) {ks : List (Deriv K)}
    (h : ks ∈ kidsL C θ r.body) (h' : ks ∈ kidsL C θ' r.body) : θ = θ' := by
  have h := ((W_chartL hC).1 ((kidsL_mem hC).1 h)).1
  have h' := ((W_chartL hC).1 ((kidsL_mem hC).1 h')).1
  have key : ∀ (b : List (BLit K)) ks, List.Forall₂ (Fits θ) b ks → List.Forall₂ (Fits θ') b ks →
      (∀ t, BLit.sub t ∈ b → t.sub θ = t.sub θ') ∧ ∀ x y, BLit.eq x y ∈ b → x.sub θ = y.sub θ ∧ x.sub θ' = y.sub θ' := by
    intro b
    induction b with
    | nil => intro ks _ _; simp
    | cons z b ih =>
      intro ks h h'
      cases h with
      | cons a1 a2 => cases h' with
        | cons b1 b2 =>
          obtain ⟨i1, i2⟩ := ih _ a2 b2
          constructor
          · intro t ht
            rcases List.mem_cons.1 ht with rfl | ht
            · rw [← a1.2, ← b1.2]
            · exact i1 t ht
          · intro x y ht
            rcases List.mem_cons.1 ht with rfl | ht
            · exact ⟨a1.1, b1.1⟩
            · exact i2 x y ht
  obtain ⟨k1, k2⟩ := key _ _ h h'
  funext n
  by_cases hn : InRule r n
  · exact bnd_agree k1 k2 (hr.bnd n hn)
  · rw [hθ.2 n hn, hθ'.2 n hn]

theorem nextL_nodup {rules : List (SRule K)} (hr : ∀ r ∈ rules, Safe r) {C : DChart K} (hC : OkC C) : (nextL rules C).Nodup := by
  rw [nextL, List.nodup_flatMap]
  constructor
  · intro q hq
    have hrs : Safe q.1 := hr _ (List.fst_mem_of_mem_zipIdx hq)
    rw [List.nodup_flatMap]
    constructor
    · intro θ _
      refine (kidsL_nodup hC).map fun a b h => ?_
      simpa using h
    · refine insts_nodup.imp_of_mem ?_
      intro θ θ' h1 h2 hne
      simp only [Function.onFun]
      intro e he he'
      obtain ⟨ks, hks, rfl⟩ := List.mem_map.1 he
      obtain ⟨ks', hks', e⟩ := List.mem_map.1 he'
      simp only [Prod.mk.injEq, Deriv.node.injEq, true_and] at e
      obtain ⟨_, _, rfl⟩ := e
      exact hne (inst_det hC hrs ((insts_mem hC hrs).1 h1).1 ((insts_mem hC hrs).1 h2).1 hks hks')
  · refine (zipIdx_pairwise rules).imp ?_
    intro q q' hne
    simp only [Function.onFun]
    intro e he he'
    simp only [List.mem_flatMap, List.mem_map] at he he'
    obtain ⟨_, _, _, _, rfl⟩ := he
    obtain ⟨_, _, _, _, e⟩ := he'
    simp only [Prod.mk.injEq, Deriv.node.injEq] at e
    exact hne e.2.1.symm

theorem sum_flatMap' {α β : Type} (l : List α) (g : α → List β) (w : β → K) :
    ((l.flatMap g).map w).sum = (l.map fun a => ((g a).map w).sum).sum := by
  induction l with
  | nil => simp
  | cons a l ih => simp [ih]

theorem contrib_sum {C : DChart K} (hC : OkC C) {r : SRule K} (hr : Safe r) (x : Tm) :
    contrib r (sumAt C) x = ((insts C r).map fun θ => if r.head.sub θ = x then instVal (sumAt C) r.body θ else 0).sum := by
  classical
  unfold contrib
  have h1 : Function.support (Solver.instAt r (sumAt C) x) ⊆ ((insts C r).toFinset : Set (Nat → Tm)) := by
    intro θ hθ
    simp only [Function.mem_support, Solver.instAt] at hθ
    simp only [List.coe_toFinset, Set.mem_setOf_eq]
    split at hθ
    · rename_i hh
      rw [insts_mem hC hr]
      refine ⟨hh.1, fun h => hθ ?_⟩
      rw [← kidsL_sum, h]; simp
    · exact absurd rfl hθ
  rw [finsum_eq_sum_of_support_subset _ h1, List.sum_toFinset _ insts_nodup]
  congr 1
  refine List.map_congr_left fun θ hθ => ?_
  have := ((insts_mem hC hr).1 hθ).1
  simp only [Solver.instAt]
  by_cases hx : r.head.sub θ = x <;> simp [this, hx]

/-- one application of the step operator sums over the derivations over the chart -/
theorem nextL_sum {rules : List (SRule K)} (hr : ∀ r ∈ rules, Safe r) {C : DChart K} (hC : OkC C) (x : Tm) :
    sumAt (nextL rules C) x = rhs rules (sumAt C) x := by
  have hz : (rules.map fun r => contrib r (sumAt C) x) = rules.zipIdx.map fun q => contrib q.1 (sumAt C) x := by
    conv_lhs => rw [← List.zipIdx_map_fst 0 rules]
    rw [List.map_map]; rfl
  unfold sumAt nextL
  rw [sum_flatMap']
  show _ = rhs rules (sumAt C) x
  unfold rhs
  rw [hz]
  congr 1
  refine List.map_congr_left fun q hq => ?_
  have hrs : Safe q.1 := hr _ (List.fst_mem_of_mem_zipIdx hq)
  rw [contrib_sum hC hrs, sum_flatMap']
  congr 1
  refine List.map_congr_left fun θ _ => ?_
  rw [List.map_map, ← kidsL_sum]
  split
  · rename_i hx
    congr 1
    refine List.map_congr_left fun ks _ => ?_
    simp [hx, wt, leaves]
  · rename_i hx
    have : ((fun e : Tm × Deriv K => if e.1 = x then wt e.2 else 0) ∘ fun ks => (q.1.head.sub θ, Deriv.node q.2 (q.1.head.sub θ) ks)) = fun _ => 0 := by
      funext ks; simp [hx]
    rw [this]; simp

theorem iter_forest {rules : List (SRule K)} (hr : ∀ r ∈ rules, Safe r) : ∀ t, ∃ C : DChart K, OkC C ∧ (∀ e, e ∈ C ↔ UpTo rules t e) ∧
    ∀ x, iter rules t x = sumAt C x := by
  intro t
  induction t with
  | zero => exact ⟨[], OkC.nil, by simp [upTo_zero], by simp [iter, sumAt]⟩
  | succ t ih =>
    obtain ⟨C, h1, h2, h3⟩ := ih
    refine ⟨nextL rules C, next_ok (nextL_nodup hr h1) fun e he => (nextL_mem hr h1).1 he, fun e => (nextL_mem hr h1).trans (next_upTo h2), ?_⟩
    intro x
    rw [nextL_sum hr h1]
    exact Naive.rhs_congr h3 x

/-- An item has only finitely many derivations of bounded height, although the set of ground terms is infinite. -/
theorem C26_finite {rules : List (SRule K)} (hr : ∀ r ∈ rules, Safe r) (t : Nat) (x : Tm) :
    {d : Deriv K | IsDeriv rules x d ∧ height d ≤ t}.Finite := by
  classical
  obtain ⟨C, _, h2, _⟩ := iter_forest hr t
  refine ((C.map Prod.snd).toFinset.finite_toSet).subset ?_
  intro d hd
  simp only [List.coe_toFinset, Set.mem_setOf_eq, List.mem_map]
  exact ⟨(x, d), (h2 (x, d)).2 hd, rfl⟩

/-- The `t`-th iterate of the step operator gives each item the sum, over its derivations of height at most `t`,
of the product of the leaves. -/
theorem C26_trees {rules : List (SRule K)} (hr : ∀ r ∈ rules, Safe r) (t : Nat) (x : Tm) :
    iter rules t x = ∑ᶠ d ∈ {d : Deriv K | IsDeriv rules x d ∧ height d ≤ t}, (leaves d).prod := by
  classical
  obtain ⟨C, h1, h2, h3⟩ := iter_forest hr t
  rw [h3, sumAt, sum_filter]
  have hset : {d : Deriv K | IsDeriv rules x d ∧ height d ≤ t} = (((C.filter fun e => decide (e.1 = x)).map Prod.snd).toFinset : Set (Deriv K)) := by
    ext d
    simp only [Set.mem_setOf_eq, List.coe_toFinset, List.mem_map, List.mem_filter, decide_eq_true_eq]
    constructor
    · intro h; exact ⟨(x, d), ⟨(h2 (x, d)).2 h, rfl⟩, rfl⟩
    · rintro ⟨e, ⟨h4, rfl⟩, rfl⟩; exact (h2 e).1 h4
  have hnd : ((C.filter fun e => decide (e.1 = x)).map Prod.snd).Nodup := by
    unfold List.Nodup
    rw [List.pairwise_map]
    refine (h1.nodup.filter _).imp_of_mem ?_
    intro e e' he he' hne h
    simp only [List.mem_filter, decide_eq_true_eq] at he he'
    exact hne (Prod.ext (he.2.trans he'.2.symm) h)
  rw [hset, finsum_mem_coe_finset, List.sum_toFinset _ hnd, List.map_map]
  rfl

/-- After `n` rounds of forward chaining the value of an item is the sum over its derivations of height at most
`n` of the product of their leaves. -/
theorem C26_forward_chaining {g : Naive.Cfg K} (hd : ∀ c, g.dead c = true → c = 0) (hs : ∀ a b, g.same a b = true → ∀ x, Solver.value a x = Solver.value b x)
    (hr : ∀ r ∈ g.rules, Safe r) {f n : Nat} {q : Dict Tm K} (e : Naive.fcF g f n [] none = some (q, .done)) (x : Tm) :
    Solver.value q x = ∑ᶠ d ∈ {d : Deriv K | IsDeriv g.rules x d ∧ height d ≤ n}, (leaves d).prod := by
  rw [Naive.C26_rounds hd hs hr e, C26_trees hr]

/-! ### Enumeration ends -/

theorem wrapF_ends {h : Heap} (hg : Good h) : ∀ (b : List (BLit K)) (P : List (Deriv K)), ∃ N, ∀ f ≥ N, wrapF h f b P = some (wrap (res h) b P) := by
  intro b
  induction b with
  | nil => intro P; exact ⟨0, fun f _ => by simp [wrapF, wrap]⟩
  | cons z b ih =>
    intro P
    cases P with
    | nil => exact ⟨0, fun f _ => by cases z <;> simp [wrapF, wrap]⟩
    | cons d P =>
      obtain ⟨N, hN⟩ := ih P
      cases z with
      | val k => exact ⟨N, fun f hf => by simp [wrapF, wrap, hN f hf]⟩
      | sub t => exact ⟨N, fun f hf => by simp [wrapF, wrap, hN f hf]⟩
      | eq x y =>
        obtain ⟨f1, e1⟩ := hg.deref x
        obtain ⟨f2, e2⟩ := hg.deref y
        exact ⟨N + f1 + f2, fun f hf => by
          simp [wrapF, wrap, hN f (by omega), deref_mono e1 (by omega : f1 ≤ f), deref_mono e2 (by omega : f2 ≤ f)]⟩
      | cmp o x y =>
        obtain ⟨f1, e1⟩ := hg.deref x
        obtain ⟨f2, e2⟩ := hg.deref y
        exact ⟨N + f1 + f2, fun f hf => by
          simp [wrapF, wrap, hN f (by omega), deref_mono e1 (by omega : f1 ≤ f), deref_mono e2 (by omega : f2 ≤ f)]⟩

theorem addD_ends {r : SRule K} {i : Nat} {P : List (Deriv K)} {h : Heap} (hg : Good h) (hh : Ground (r.head.sub (res h))) :
    Ends (fun f => addD f r i P) h := by
  obtain ⟨f1, e1⟩ := wrapF_ends hg r.body P
  obtain ⟨f2, e2⟩ := hg.deref r.head
  obtain ⟨N, hN⟩ := groundF_evt _ _ _ e2
  have hgr : vars (r.head.sub (res h)) = ∅ := hh
  refine ⟨f1 + f2 + N, fun s => ⟨s ++ [(r.head.sub (res h), .node i (r.head.sub (res h)) (wrap (res h) r.body P))], fun f hf => ?_⟩⟩
  simp only [addD]
  rw [e1 f (by omega), deref_mono e2 (by omega : f2 ≤ f), hN f (by omega)]
  simp only [hgr, decide_true]

theorem addRaw_ends {r : SRule K} (hb : r.body.any isBuiltin = false) {i : Nat} {P : List (Deriv K)} {h : Heap} (hg : Good h)
    (hh : Ground (r.head.sub (res h))) : Ends (fun f => addRaw f r i P) h := by
  obtain ⟨f2, e2⟩ := hg.deref r.head
  obtain ⟨N, hN⟩ := groundF_evt _ _ _ e2
  have hgr : vars (r.head.sub (res h)) = ∅ := hh
  refine ⟨f2 + N, fun s => ⟨s ++ [(r.head.sub (res h), .node i (r.head.sub (res h)) P)], fun f hf => ?_⟩⟩
  simp only [addRaw, hb]
  rw [deref_mono e2 (by omega : f2 ≤ f), hN f (by omega)]
  simp only [hgr, decide_true, Bool.false_eq_true, if_false]

theorem joinD_ends {S : Type} {k : Nat → List (Deriv K) → Body S} (hk : ∀ f P, Restores (k f P)) {src : Src (Deriv K)} (hs : src.Ok)
    {body : List (BLit K)} (hfn : ∀ z ∈ body, FnOk z) {h : Heap} {B : Finset Nat} (hg : Good h) (hB : GrdOn h B) (hm : Moded B body)
    (hend : ∀ vs h1, Good h1 → (∀ τ, Respects h1 τ → Respects h τ) → GrdOn h1 (boundBy B body) → Ends (fun f => k f vs) h1) :
    Ends (fun f => joinD f src body (k f)) h := by
  have hmap : (body.map fun z => (src, z)).map Prod.snd = body := by simp [List.map_map, Function.comp_def]
  refine joinZ_ends hk (body.map fun z => (src, z)) ?_ ?_ [] h B hg hB (by rwa [hmap]) (by rwa [hmap])
  · intro p hp; obtain ⟨_, _, rfl⟩ := List.mem_map.1 hp; exact hs
  · intro p hp; obtain ⟨z0, hz0, rfl⟩ := List.mem_map.1 hp; exact hfn z0 hz0

theorem stepD_ends {rules : List (SRule K)} (hr : ∀ r ∈ rules, Safe r ∧ Naive.Ordered r) {C : DChart K} (hC : OkC C) :
    ∃ N C', ∀ f ≥ N, stepD rules f C = some (C', .done) := by
  have : Ends (fun f => forEach rules.zipIdx (fun p => joinD f ⟨C, true⟩ p.1.body (addD f p.1 p.2))) noHeap := by
    refine forEach_ends fun q hq => ?_
    have hrs := hr _ (List.fst_mem_of_mem_zipIdx hq)
    refine joinD_ends (k := fun f => addD f q.1 q.2) (fun _ _ => addD_restores) (hC.src true) (Naive.safe_fn hrs.1) good_noHeap
      (B := ∅) (by intro n hn; simp at hn) hrs.2.body fun vs h1 g1 _ hB => ?_
    exact addD_ends g1 (hB.sub hrs.2.head)
  obtain ⟨N, hN⟩ := this
  obtain ⟨q, hq⟩ := hN []
  beta_reduce at hq
  exact ⟨N, q, fun f hf => by unfold stepD; rw [hq f hf]; rfl⟩

theorem naiveD_ends {rules : List (SRule K)} (hr : ∀ r ∈ rules, Safe r ∧ Naive.Ordered r) : ∀ T x, OkC x →
    ∃ N C, ∀ f ≥ N, naiveD rules f T x = some (C, .done) := by
  intro T
  induction T with
  | zero => intro x _; exact ⟨0, x, fun f _ => rfl⟩
  | succ T ih =>
    intro x hx
    obtain ⟨N, x1, hN⟩ := stepD_ends hr hx
    obtain ⟨h1, h2⟩ := stepD_exact (fun r h => (hr r h).1) hx (hN N (le_refl _))
    obtain ⟨M, C, hM⟩ := ih x1 (next_ok h1 fun e he => (h2 e).1 he)
    by_cases hs : x1.length = x.length
    · refine ⟨N, x, fun f hf => ?_⟩
      rw [naiveD, hN f hf]; simp only [hs, if_true]
    · refine ⟨N + M, C, fun f hf => ?_⟩
      rw [naiveD, hN f (by omega)]; simp only [hs, if_false]
      exact hM f (by omega)

/-- For programs that can be evaluated from left to right the naive enumerator ends for every `T`, and lists
exactly the derivations of height at most `T`. -/
theorem C30_naive_total {rules : List (SRule K)} (hr : ∀ r ∈ rules, Safe r ∧ Naive.Ordered r) (T : Nat) :
    ∃ N C, (∀ f ≥ N, naiveD rules f T [] = some (C, .done)) ∧ C.Nodup ∧ ∀ x d, (x, d) ∈ C ↔ IsDeriv rules x d ∧ height d ≤ T := by
  obtain ⟨N, C, hN⟩ := naiveD_ends hr T [] OkC.nil
  exact ⟨N, C, hN, C30_naive (fun r h => (hr r h).1) (hN N (le_refl _))⟩

/-- programs without builtins in bodies -/
def Plain (rules : List (SRule K)) : Prop := ∀ r ∈ rules, r.body.any isBuiltin = false

theorem ordered_plain {r : SRule K} (hr : Safe r) (hb : r.body.any isBuiltin = false) : Naive.Ordered r := by
  have key : ∀ (b : List (BLit K)) B, b.any isBuiltin = false → Moded B b ∧ ∀ t, BLit.sub t ∈ b → vars t ⊆ boundBy B b := by
    intro b
    induction b with
    | nil => intro B _; simp [Moded]
    | cons z b ih =>
      intro B hb
      simp only [List.any_cons, Bool.or_eq_false_iff] at hb
      cases z with
      | val k =>
        refine ⟨(ih B hb.2).1, fun t ht => ?_⟩
        simp only [List.mem_cons, reduceCtorEq, false_or] at ht
        exact (ih B hb.2).2 t ht
      | sub t0 =>
        refine ⟨(ih _ hb.2).1, fun t ht => ?_⟩
        simp only [List.mem_cons, BLit.sub.injEq] at ht
        rcases ht with rfl | ht
        · exact fun m hm => subset_boundBy (B := B ∪ vars t) (Finset.mem_union_right _ hm)
        · exact (ih _ hb.2).2 t ht
      | eq x y => simp [isBuiltin] at hb
      | cmp o x y => simp [isBuiltin] at hb
  obtain ⟨h1, h2⟩ := key r.body ∅ hb
  refine ⟨h1, fun n hn => ?_⟩
  have hbn := hr.bnd n (.inl hn)
  have noeq : ∀ x y, BLit.eq x y ∉ r.body := by
    intro x y h
    have := List.any_eq_false.1 hb _ h
    simp [isBuiltin] at this
  cases hbn with
  | sub ht hm => exact h2 _ ht hm
  | eqr h _ _ => exact absurd h (noeq _ _)
  | eql h _ _ => exact absurd h (noeq _ _)

theorem pairD_ends {old new : DChart K} (ho : OkC old) (hn : OkC new) {r : SRule K} (hr : Safe r) (hb : r.body.any isBuiltin = false) {i : Nat}
    {p : List (BLit K) × BLit K × List (BLit K)} (hp : p ∈ splits r.body) {t : Tm} (ht : p.2.1 = .sub t) (vs : List (Deriv K)) {h1 : Heap} (g1 : Good h1)
    (hB : GrdOn h1 (∅ ∪ vars t)) :
    Ends (fun f => joinD f ⟨new, true⟩ p.1 fun L => joinD f ⟨old, true⟩ p.2.2 fun R => addRaw f r i (L ++ vs ++ R)) h1 := by
  obtain ⟨f1, f2, f3⟩ := Naive.split_fn hr hp
  have hord := ordered_plain hr hb
  have hbd := hord.body
  have hh := hord.head
  rw [mem_splits hp, ht] at hbd hh
  obtain ⟨m1, m2, m3⟩ := hbd.front
  refine joinD_ends (k := fun f L => joinD f ⟨old, true⟩ p.2.2 fun R => addRaw f r i (L ++ vs ++ R))
    (fun f L => joinD_restores fun _ => addRaw_restores) (hn.src true) f2 g1 hB m1 ?_
  intro L h2 g2 _ hB2
  refine joinD_ends (k := fun f R => addRaw f r i (L ++ vs ++ R)) (fun f L => addRaw_restores) (ho.src true) f3 g2 hB2 m2 ?_
  intro R h3 g3 _ hB3
  exact addRaw_ends hb g3 (hB3.sub (hh.trans m3))

theorem driveD_ends {rules : List (SRule K)} (hr : ∀ r ∈ rules, Safe r) (hb : Plain rules) {old new d : DChart K} (ho : OkC old) (hn : OkC new) (hd : OkC d) :
    Ends (fun f => driveD rules f old new d) noHeap := by
  refine forEach_ends fun q hq => forEach_ends fun p hp => ?_
  have hrs := hr _ (List.fst_mem_of_mem_zipIdx hq)
  have hbs := hb _ (List.fst_mem_of_mem_zipIdx hq)
  obtain ⟨f1, f2, f3⟩ := Naive.split_fn hrs hp
  by_cases hsub : ∃ t, p.2.1 = .sub t
  · obtain ⟨t, ht⟩ := hsub
    have := joinZ_ends (K := K) (emb := .const) (k := fun f a => joinD f ⟨new, true⟩ p.1 fun L =>
      joinD f ⟨old, true⟩ p.2.2 fun R => addRaw f q.1 q.2 (L ++ a ++ R)) (fun f a => joinD_restores fun _ => joinD_restores fun _ => addRaw_restores)
      [((⟨d, false⟩ : Src (Deriv K)), p.2.1)] (by simp [hd.src]) (by simpa using f1) [] noHeap ∅ good_noHeap (by intro n hn; simp at hn)
      (by simp [ht, Moded]) (by
        intro vs h1 g1 _ hB
        simp only [List.map_cons, List.map_nil, ht, boundBy] at hB
        exact pairD_ends ho hn hrs hbs hp ht vs g1 hB)
    exact this
  · refine ⟨0, fun s => ⟨s, fun f _ => ?_⟩⟩
    unfold lookupVals
    cases hz : p.2.1 with
    | sub t => exact absurd ⟨t, hz⟩ hsub
    | val k => simp
    | eq x y => simp
    | cmp o x y => simp

theorem semiD_ends {rules : List (SRule K)} (hr : ∀ r ∈ rules, Safe r) (hb : Plain rules) : ∀ T t m d, OkC m → OkC d →
    (∀ e, e ∈ m ↔ UpTo rules t e) → (∀ e, e ∈ d ↔ UpTo rules (t + 1) e ∧ ¬ UpTo rules t e) →
    ∃ N C, ∀ f ≥ N, semiD rules f T m d = some (C, .done) := by
  intro T
  induction T with
  | zero => intro t m d _ _ _ _; exact ⟨0, m, fun f _ => rfl⟩
  | succ T ih =>
    intro t m d hm hd h1 h2
    have g : Grow m (m ++ d) d := Grow.append hm hd fun e h3 h4 => ((h2 e).1 h4).2 ((h1 e).1 h3)
    have h5 : ∀ e, e ∈ m ++ d ↔ UpTo rules (t + 1) e := by
      intro e
      rw [List.mem_append, h1, h2]
      constructor
      · rintro (h | h)
        · exact h.mono (by omega)
        · exact h.1
      · intro h
        by_cases h' : UpTo rules t e
        · exact .inl h'
        · exact .inr ⟨h, h'⟩
    obtain ⟨N, hN⟩ := driveD_ends hr hb g.ok_old g.ok_new g.ok_d
    obtain ⟨d', hN⟩ := hN []
    beta_reduce at hN
    obtain ⟨M, hM, hn, hmem⟩ := driveD_exact hr g (hN N (le_refl _))
    simp only [List.nil_append] at hM
    subst hM
    have h6 : ∀ e, e ∈ d' ↔ UpTo rules (t + 1 + 1) e ∧ ¬ UpTo rules (t + 1) e := fun e => by
      rw [hmem, next_upTo h5, next_upTo h1]
    obtain ⟨M, C, hM⟩ := ih (t + 1) (m ++ d) d' g.ok_new (next_ok hn fun e he => ((hmem e).1 he).1) h5 h6
    by_cases hs : d'.isEmpty = true
    · refine ⟨N, m ++ d, fun f hf => ?_⟩
      rw [semiD, hN f hf]; simp only [hs, if_true]
    · refine ⟨N + M, C, fun f hf => ?_⟩
      rw [semiD, hN f (by omega)]; simp only [hs]
      exact hM f (by omega)

/-- For programs without builtins the semi-naive enumerator ends for every `T` too. -/
theorem C30_seminaive_total {rules : List (SRule K)} (hr : ∀ r ∈ rules, Safe r) (hb : Plain rules) (T : Nat) :
    ∃ N C, (∀ f ≥ N, seminaiveD rules f T = some (C, .done)) ∧ C.Nodup ∧ ∀ x d, (x, d) ∈ C ↔ IsDeriv rules x d ∧ height d ≤ T := by
  obtain ⟨N, d, hN⟩ := stepD_ends (fun r h => ⟨hr r h, ordered_plain (hr r h) (hb r h)⟩) OkC.nil
  obtain ⟨h1, h2⟩ := stepD_exact hr OkC.nil (hN N (le_refl _))
  have h0 : ∀ e, e ∈ ([] : DChart K) ↔ UpTo rules 0 e := by simp [upTo_zero]
  obtain ⟨M, C, hM⟩ := semiD_ends hr hb T 0 [] d OkC.nil (next_ok h1 fun e he => (h2 e).1 he) h0
    (fun e => by rw [h2, next_upTo h0]; simp [upTo_zero])
  have : ∀ f ≥ N + M, seminaiveD rules f T = some (C, .done) := fun f hf => by
    unfold seminaiveD
    rw [hN f (by omega)]
    exact hM f (by omega)
  exact ⟨N + M, C, this, C30_seminaive hr (this _ (le_refl _))⟩

/-- For programs without builtins the agenda enumerator starts, and every iteration ends normally. -/
theorem C31_progress {rules : List (SRule K)} (hr : ∀ r ∈ rules, Safe r) (hb : Plain rules) :
    (∃ st, AgInitD rules st) ∧ ∀ st, AgRunD rules st → st.change ≠ [] → ∃ st', AgStepD rules st st' := by
  constructor
  · obtain ⟨N, d, hN⟩ := stepD_ends (fun r h => ⟨hr r h, ordered_plain (hr r h) (hb r h)⟩) OkC.nil
    exact ⟨_, N, d, hN N (le_refl _), rfl⟩
  · intro st h hne
    have hi := agRun_inv hr h
    obtain ⟨⟨u, v⟩, c, hc⟩ := List.exists_cons_of_ne_nil hne
    have g := agStep_grow hi hc
    have hu : Ground u := g.ok_d.ground _ (List.mem_singleton.2 rfl)
    have : Ends (fun f => agLoops rules f st.old (st.new ++ [(u, v)]) u v) noHeap := by
      refine forEach_ends fun q hq => forEach_ends fun p hp => ?_
      have hrs := hr _ (List.fst_mem_of_mem_zipIdx hq)
      have hbs := hb _ (List.fst_mem_of_mem_zipIdx hq)
      by_cases hsub : ∃ t, p.2.1 = .sub t
      · obtain ⟨t, ht⟩ := hsub
        simp only [ht]
        refine unify_ends (k := fun f => joinD f ⟨st.new ++ [(u, v)], true⟩ p.1 fun L =>
          joinD f ⟨st.old, true⟩ p.2.2 fun R => addRaw f q.1 q.2 (L ++ [v] ++ R)) (fun f => joinD_restores fun _ => joinD_restores fun _ => addRaw_restores) good_noHeap ?_
        intro h1 g1 hr1
        have hxy := ((hr1 _).1 g1.respects_res).2
        rw [Chart.sub_ground hu] at hxy
        refine pairD_ends g.ok_old g.ok_new hrs hbs hp ht [v] g1 ?_
        intro n hn
        simp only [Finset.empty_union] at hn
        exact Solver.ground_of_mem (hxy ▸ hu) hn
      · refine ⟨0, fun s => ⟨s, fun f _ => ?_⟩⟩
        cases hz : p.2.1 with
        | sub t => exact absurd ⟨t, hz⟩ hsub
        | val k => simp
        | eq x y => simp
        | cmp o x y => simp
    obtain ⟨N, hN⟩ := this
    obtain ⟨q, hq⟩ := hN c
    beta_reduce at hq
    refine ⟨⟨st.old ++ [(u, v)], st.new ++ [(u, v)], q, st.out ++ [v]⟩, N, ?_⟩
    unfold agStepD
    rw [hc]
    simp only
    rw [hq N (le_refl _)]

/-- For programs without builtins the agenda enumerator has a run that yields exactly the derivations (it may
stop, from then on the state is repeated here). -/
theorem C31_total {rules : List (SRule K)} (hr : ∀ r ∈ rules, Safe r) (hb : Plain rules) :
    ∃ σ : Nat → AgD K, AgInitD rules (σ 0) ∧ (∀ n, AgStepD rules (σ n) (σ (n + 1)) ∨ (σ n).change = [] ∧ σ (n + 1) = σ n) ∧
      (∀ n, (σ n).out.Nodup) ∧ ∀ d, (∃ n, d ∈ (σ n).out) ↔ ∃ x, IsDeriv rules x d := by
  classical
  obtain ⟨⟨st0, h0⟩, hp⟩ := C31_progress hr hb
  let nxt : {st : AgD K // AgRunD rules st} → {st : AgD K // AgRunD rules st} := fun st =>
    if h : st.1.change ≠ [] then ⟨_, .step st.2 (hp st.1 st.2 h).choose_spec⟩ else st
  let τ : Nat → {st : AgD K // AgRunD rules st} := fun n => Nat.rec ⟨st0, .init h0⟩ (fun _ st => nxt st) n
  have hstep : ∀ n, AgStepD rules (τ n).1 (τ (n + 1)).1 ∨ (τ n).1.change = [] ∧ (τ (n + 1)).1 = (τ n).1 := by
    intro n
    by_cases hc : (τ n).1.change ≠ []
    · left
      have e : τ (n + 1) = ⟨_, .step (τ n).2 (hp (τ n).1 (τ n).2 hc).choose_spec⟩ := by
        show nxt (τ n) = _
        simp only [nxt, dif_pos hc]
      rw [e]
      exact (hp (τ n).1 (τ n).2 hc).choose_spec
    · right
      refine ⟨not_not.1 hc, ?_⟩
      have e : τ (n + 1) = τ n := by
        show nxt (τ n) = _
        simp only [nxt, dif_neg hc]
      rw [e]
  refine ⟨fun n => (τ n).1, h0, hstep, fun n => (C31_sound hr (τ n).2).1, fun d => ?_⟩
  constructor
  · rintro ⟨n, hn⟩; exact ⟨_, (C31_sound hr (τ n).2).2 d hn⟩
  · rintro ⟨x, hx⟩
    by_cases hfin : ∃ n, (τ n).1.change = []
    · obtain ⟨n, hn⟩ := hfin
      exact ⟨n, C31_finished hr (τ n).2 hn hx⟩
    · have hinf : ∀ n, AgStepD rules (τ n).1 (τ (n + 1)).1 := fun n => (hstep n).resolve_right fun h => hfin ⟨n, h.1⟩
      exact C31_fair (σ := fun n => (τ n).1) hr h0 hinf hx

end Enum

section Examples

private def ct (s : String) : Tm := .con (.str s)
private def X : Tm := .var 0
private def Y : Tm := .var 1
private def Z : Tm := .var 2
private def edge (x y : Tm) : Tm := .app [ct "edge", x, y]
private def path (x y : Tm) : Tm := .app [ct "path", x, y]

/-- `edge(a,b) += 2.  edge(b,a) += 3.  path(X,Y) += edge(X,Y).  path(X,Z) += path(X,Y) * path(Y,Z).` -/
private def prog : List (SRule ℕ) :=
  [⟨edge (ct "a") (ct "b"), [.val 2]⟩, ⟨edge (ct "b") (ct "a"), [.val 3]⟩,
   ⟨path X Y, [.sub (edge X Y)]⟩, ⟨path X Z, [.sub (path X Y), .sub (path Y Z)]⟩]

private theorem prog_safe : ∀ r ∈ prog, Safe r := by
  intro r hr
  simp only [prog, List.mem_cons, List.not_mem_nil, or_false] at hr
  rcases hr with rfl | rfl | rfl | rfl
  · exact ⟨fun n hn => by rcases hn with hn | ⟨z, hz, hn⟩ <;> simp_all [edge, ct, litVars], by simp⟩
  · exact ⟨fun n hn => by rcases hn with hn | ⟨z, hz, hn⟩ <;> simp_all [edge, ct, litVars], by simp⟩
  · refine ⟨fun n hn => .sub (t := edge X Y) (by simp) ?_, ?_⟩
    · rcases hn with hn | ⟨z, hz, hn⟩
      · simpa [path, edge, X, Y, ct] using hn
      · simp only [List.mem_singleton] at hz; subst hz; exact hn
    · intro t ht; simp only [List.mem_singleton, BLit.sub.injEq] at ht; subst ht; exact ⟨_, _, rfl⟩
  · refine ⟨fun n hn => ?_, ?_⟩
    · have : n = 0 ∨ n = 1 ∨ n = 2 := by
        rcases hn with hn | ⟨z, hz, hn⟩
        · simp [path, X, Z, ct] at hn; omega
        · simp only [List.mem_cons, List.not_mem_nil, or_false] at hz
          rcases hz with rfl | rfl <;> simp [litVars, path, X, Y, Z, ct] at hn <;> omega
      rcases this with rfl | rfl | rfl
      · exact .sub (t := path X Y) (by simp) (by simp [path, X, Y, ct])
      · exact .sub (t := path X Y) (by simp) (by simp [path, X, Y, ct])
      · exact .sub (t := path Y Z) (by simp) (by simp [path, Y, Z, ct])
    · intro t ht
      simp only [List.mem_cons, BLit.sub.injEq, List.not_mem_nil, or_false] at ht
      rcases ht with rfl | rfl <;> exact ⟨_, _, rfl⟩

private theorem prog_plain : Plain prog := by unfold Plain; decide

-- the numbers of derivations of height at most 0, 1, 2, 3, 4
example : ((List.range 5).map fun T => (naiveD prog 40 T []).map fun p => (p.1.length, p.2)) =
    [some (0, .done), some (2, .done), some (4, .done), some (6, .done), some (12, .done)] := by decide +kernel
example : ((List.range 5).map fun T => (seminaiveD prog 40 T).map fun p => (p.1.length, p.2)) =
    [some (0, .done), some (2, .done), some (4, .done), some (6, .done), some (12, .done)] := by decide +kernel

-- the hypotheses of the totality theorems
example : ∃ N C, (∀ f ≥ N, naiveD prog f 4 [] = some (C, .done)) ∧ C.Nodup ∧ ∀ x d, (x, d) ∈ C ↔ IsDeriv prog x d ∧ height d ≤ 4 :=
  C30_naive_total (fun r h => ⟨prog_safe r h, ordered_plain (prog_safe r h) (prog_plain r h)⟩) 4
example := C30_seminaive_total prog_safe prog_plain 4
example := C31_total prog_safe prog_plain

/-- run the agenda enumerator for `n` iterations -/
private def agExec : Nat → AgD ℕ → Option (AgD ℕ)
  | 0, st => some st
  | n + 1, st => match agStepD prog 40 st with
    | some (st', .done) => agExec n st'
    | _ => none

-- ten derivations from the agenda, with their heights and values
example : ((stepD prog 40 []).bind fun p => agExec 10 ⟨[], [], p.1, []⟩).map (fun st => st.out.map fun d => (height d, (leaves d).prod)) =
    some [(1, 2), (1, 3), (2, 2), (2, 3), (3, 6), (3, 6), (4, 18), (4, 12), (4, 36), (4, 12)] := by decide +kernel

-- the value of `path(a,a)` after 4 rounds, as a sum over derivations
example : iter prog 4 (path (ct "a") (ct "a")) = ∑ᶠ d ∈ {d : Deriv ℕ | IsDeriv prog (path (ct "a") (ct "a")) d ∧ height d ≤ 4}, (leaves d).prod :=
  C26_trees prog_safe 4 _

/-- a tree of dimension 2, height 3, size 7 -/
private def tree : Deriv ℕ :=
  .node 0 X [.node 1 X [.node 2 X [.const 2], .node 2 X [.const 3]], .node 1 X [.node 2 X [.const 5], .node 2 X [.bi X X]]]

example : (dimension tree, height tree, size tree) = (2, 3, 7) ∧ leaves tree = [2, 3, 5, 1] := by
  simp [tree, dimension, dims, combine, height, heightL, size, sizeL, leaves, leavesL, List.mergeSort, List.MergeSort.Internal.splitInTwo, List.merge]

/-- `p(a) += 1.  q(X) += p(X) * (X = a).` -/
private def withEq : List (SRule ℕ) :=
  [⟨.app [ct "p", ct "a"], [.val 1]⟩, ⟨.app [ct "q", X], [.sub (.app [ct "p", X]), .eq X (ct "a")]⟩]

/-- With a builtin in a rule the naive enumerator lists the derivations, but the semi-naive and the agenda
enumerators raise: they do not wrap the result of the builtin. -/
theorem C30_builtin_raises : (naiveD withEq 40 2 []).map (fun p => (p.1.length, p.2)) = some (2, .done) ∧
    (seminaiveD withEq 40 2).map (fun p => p.2) = some badOrder ∧
    ((stepD withEq 40 []).bind fun p => (agStepD withEq 40 ⟨[], [], p.1, []⟩).map fun q => (p.2, q.2)) = some (.done, badOrder) := by decide +kernel

end Examples

end Deriv
end Verif
