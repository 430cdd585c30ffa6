/-
C65, C66: the bounds of `runtime.py` are upper bounds.
-/
import Verif.Runtime
import Verif.TypeAnThm
import Mathlib.Data.Set.Card.Arithmetic
import Mathlib.Data.List.Permutation

set_option linter.unusedSectionVars false
set_option linter.unusedSimpArgs false

namespace Verif
namespace Runtime
open Tm Heap
open Rewrites (Ty Den Res)
open Propagate (Solution Avoids)
open Solver (noHeap)
open TypeAn (Cover Callable)

/-! ### Specification -/

/-- Two valuations agree on a set of variables. -/
def Agree (V : Finset Nat) (σ τ : Nat → Tm) : Prop := ∀ v ∈ V, σ v = τ v

/-- The ground items of a type when the variables in `V` are given the values that `σ0` says. -/
def DenAt (I : Set Tm) (t : Ty) (V : Finset Nat) (σ0 : Nat → Tm) : Set Tm :=
  {x | ∃ σ, Solution I t.2 σ ∧ Agree V σ σ0 ∧ x = t.1.sub σ}

/-- The symbols bound the numbers of true constraints with their functor. -/
def Sizes (g : Cfg) (I : Set Tm) : Prop :=
  ∀ c, Callable c → g.builtin c = false → {y | y ∈ I ∧ hfn y = hfn c}.encard ≤ g.size (hfn c)

/-- The number of ways to run through constraints in the given order: a constraint whose variables are known is
a test, any other one is enumerated, which builtins cannot do; in the end the head must be known. -/
noncomputable def ordCost (g : Cfg) (hd : Tm) : Finset Nat → List Tm → ℕ∞
  | V, [] => if vars hd ⊆ V then 1 else ⊤
  | V, c :: cs =>
    if vars c ⊆ V then ordCost g hd (V ∪ vars c) cs
    else if g.builtin c then ⊤
    else g.size (hfn c) * ordCost g hd (V ∪ vars c) cs

/-! ### Counting -/

theorem encard_cover {α β : Type*} {A : Set α} {Y : Set β} {B : β → Set α} {k : ℕ∞} (hA : ∀ a ∈ A, ∃ y ∈ Y, a ∈ B y)
    (hB : ∀ y ∈ Y, (B y).encard ≤ k) : A.encard ≤ Y.encard * k := by
  classical
  by_cases hk : k = 0
  · have : A = ∅ := by
      ext a
      simp only [Set.mem_empty_iff_false, iff_false]
      intro ha
      obtain ⟨y, hy, h⟩ := hA a ha
      have h2 := hB y hy
      rw [hk, nonpos_iff_eq_zero, Set.encard_eq_zero] at h2
      rw [h2] at h
      exact h
    rw [this]; simp
  · by_cases hY : Y.Finite
    · have key : ∀ s : Finset β, (∀ y ∈ s, y ∈ Y) → (⋃ y ∈ s, B y).encard ≤ (s.card : ℕ∞) * k := by
        intro s
        induction s using Finset.induction_on with
        | empty => simp
        | insert y s hy ih =>
          intro h
          rw [Finset.set_biUnion_insert, Finset.card_insert_of_notMem hy]
          refine (Set.encard_union_le _ _).trans ?_
          push_cast
          rw [add_mul, one_mul, add_comm]
          exact add_le_add (ih fun z hz => h z (by simp [hz])) (hB y (h y (by simp)))
      have h1 := key hY.toFinset (by simp)
      have h2 : A ⊆ ⋃ y ∈ hY.toFinset, B y := fun a ha => by
        obtain ⟨y, hy, h⟩ := hA a ha
        simp only [Set.mem_iUnion, Set.Finite.mem_toFinset]
        exact ⟨y, hy, h⟩
      rw [hY.encard_eq_coe_toFinset_card]
      exact (Set.encard_le_encard h2).trans h1
    · rw [Set.Infinite.encard_eq hY, ENat.top_mul hk]
      exact le_top

theorem encard_sum {α β : Type*} {A : Set α} {B : β → Set α} {c : β → ℕ∞} : ∀ {l : List β}, (∀ a ∈ A, ∃ y ∈ l, a ∈ B y) →
    (∀ y ∈ l, (B y).encard ≤ c y) → A.encard ≤ (l.map c).sum
  | [], hA, _ => by
    have : A = ∅ := by
      ext a
      simp only [Set.mem_empty_iff_false, iff_false]
      intro ha
      obtain ⟨y, hy, _⟩ := hA a ha
      simp at hy
    rw [this]; simp
  | y :: l, hA, hB => by
    have h1 : (A \ B y).encard ≤ (l.map c).sum := encard_sum (B := B) (fun a ha => by
      obtain ⟨z, hz, h⟩ := hA a ha.1
      rcases List.mem_cons.1 hz with rfl | hz
      · exact (ha.2 h).elim
      · exact ⟨z, hz, h⟩) fun z hz => hB z (by simp [hz])
    have h2 : A ⊆ B y ∪ (A \ B y) := fun a ha => by
      by_cases h : a ∈ B y
      · exact .inl h
      · exact .inr ⟨ha, h⟩
    rw [List.map_cons, List.sum_cons]
    exact (Set.encard_le_encard h2).trans ((Set.encard_union_le _ _).trans (add_le_add (hB y (by simp)) h1))

/-! ### Bounds on types -/

section
variable {g : Cfg} {I : Set Tm}

theorem agree_sub {V : Finset Nat} {σ τ : Nat → Tm} (h : Agree V σ τ) {t : Tm} (ht : vars t ⊆ V) : t.sub σ = t.sub τ :=
  sub_congr fun n hn => h n (ht hn)

/-- what `min` does along a list -/
theorem foldl_min_le {α : Type} (F : α → List ℕ∞) : ∀ (l : List α) (a : ℕ∞),
    (l.foldl (fun best c => (F c).foldl (fun best x => min best x) best) a) ≤ a ∧
    (∀ c ∈ l, ∀ x ∈ F c, (l.foldl (fun best c => (F c).foldl (fun best x => min best x) best) a) ≤ x) ∧
    ((l.foldl (fun best c => (F c).foldl (fun best x => min best x) best) a) = a ∨
      ∃ c ∈ l, ∃ x ∈ F c, (l.foldl (fun best c => (F c).foldl (fun best x => min best x) best) a) = x) := by
  have inner : ∀ (l : List ℕ∞) (a : ℕ∞), l.foldl (fun best x => min best x) a ≤ a ∧ (∀ x ∈ l, l.foldl (fun best x => min best x) a ≤ x) ∧
      (l.foldl (fun best x => min best x) a = a ∨ l.foldl (fun best x => min best x) a ∈ l) := by
    intro l
    induction l with
    | nil => simp
    | cons x l ih =>
      intro a
      obtain ⟨h1, h2, h3⟩ := ih (min a x)
      simp only [List.foldl_cons]
      refine ⟨h1.trans (min_le_left _ _), fun y hy => ?_, ?_⟩
      · rcases List.mem_cons.1 hy with rfl | hy
        · exact h1.trans (min_le_right _ _)
        · exact h2 y hy
      · rcases h3 with h3 | h3
        · rw [h3]
          rcases min_choice a x with h | h
          · exact .inl h
          · exact .inr (by rw [h]; simp)
        · exact .inr (List.mem_cons_of_mem _ h3)
  intro l
  induction l with
  | nil => simp
  | cons c l ih =>
    intro a
    simp only [List.foldl_cons]
    obtain ⟨h1, h2, h3⟩ := ih ((F c).foldl (fun best x => min best x) a)
    obtain ⟨i1, i2, i3⟩ := inner (F c) a
    refine ⟨h1.trans i1, fun d hd x hx => ?_, ?_⟩
    · rcases List.mem_cons.1 hd with rfl | hd
      · exact h1.trans (i2 x hx)
      · exact h2 d hd x hx
    · rcases h3 with h3 | ⟨d, hd, x, hx, h⟩
      · rw [h3]
        rcases i3 with i3 | i3
        · exact .inl i3
        · exact .inr ⟨c, by simp, _, i3, rfl⟩
      · exact .inr ⟨d, by simp [hd], x, hx, h⟩

theorem stb_succ (hd : Tm) (n : Nat) (V : Finset Nat) (c : Tm) (cs : List Tm) : stb g hd (n + 1) V (c :: cs) =
    (c :: cs).foldl (fun best d => ((lookupBounds g d V).map fun cost => cost * stb g hd n (V ∪ vars d) ((c :: cs).erase d)).foldl
      (fun best x => min best x) best) ⊤ := by
  simp only [stb, List.foldl_map]

/-- The bound is the cost of the best order of the constraints. -/
theorem stb_best (hd : Tm) : ∀ (n : Nat) (V : Finset Nat) (cs : List Tm), cs.length = n →
    (∀ l, l.Perm cs → stb g hd n V cs ≤ ordCost g hd V l) ∧ ∃ l, l.Perm cs ∧ stb g hd n V cs = ordCost g hd V l
  | 0, V, cs, hn => by
    obtain rfl := List.length_eq_zero_iff.1 hn
    exact ⟨fun l hl => by rw [List.perm_nil.1 hl]; simp [stb, ordCost], [], List.Perm.refl _, by simp [stb, ordCost]⟩
  | n + 1, V, [], hn => by simp at hn
  | n + 1, V, c :: cs, hn => by
    obtain ⟨h1, h2, h3⟩ := foldl_min_le (fun d => (lookupBounds g d V).map fun cost => cost * stb g hd n (V ∪ vars d) ((c :: cs).erase d)) (c :: cs) ⊤
    rw [← stb_succ] at h1 h2 h3
    have hlen : ∀ d ∈ c :: cs, ((c :: cs).erase d).length = n := fun d hd => by rw [List.length_erase_of_mem hd, hn]; rfl
    have lower : ∀ l, l.Perm (c :: cs) → stb g hd (n + 1) V (c :: cs) ≤ ordCost g hd V l := by
      intro l hl
      cases l with
      | nil => simp at hl
      | cons d l =>
        have hd1 : d ∈ c :: cs := hl.subset (by simp)
        have hp : l.Perm ((c :: cs).erase d) := by
          have := hl.erase d
          rwa [List.erase_cons_head] at this
        have ih := (stb_best hd n (V ∪ vars d) ((c :: cs).erase d) (hlen d hd1)).1 l hp
        simp only [ordCost]
        split
        · next hb =>
          refine (h2 d hd1 (1 * stb g hd n (V ∪ vars d) ((c :: cs).erase d)) ?_).trans (by rw [one_mul]; exact ih)
          simp [lookupBounds, hb]
        · next hb =>
          split
          · exact le_top
          · next hc =>
            refine (h2 d hd1 (g.size (hfn d) * stb g hd n (V ∪ vars d) ((c :: cs).erase d)) ?_).trans (mul_le_mul_right ih _)
            simp [lookupBounds, hb, hc]
    refine ⟨lower, ?_⟩
    rcases h3 with h3 | ⟨d, hd1, x, hx, h⟩
    · refine ⟨c :: cs, List.Perm.refl _, le_antisymm (lower _ (List.Perm.refl _)) ?_⟩
      rw [h3]; exact le_top
    · obtain ⟨l, hl, e⟩ := (stb_best hd n (V ∪ vars d) ((c :: cs).erase d) (hlen d hd1)).2
      refine ⟨d :: l, (hl.cons d).trans (List.perm_cons_erase hd1).symm, ?_⟩
      rw [h]
      simp only [ordCost]
      simp only [lookupBounds] at hx
      split at hx
      · next hb =>
        simp only [List.map_cons, one_mul, List.map_nil, List.mem_singleton] at hx
        rw [hx, if_pos hb, e]
      · next hb =>
        split at hx
        · simp at hx
        · next hc =>
          simp only [List.map_cons, List.map_nil, List.mem_singleton] at hx
          rw [hx, if_neg hb, if_neg hc, e]

/-- Running through the constraints of a type in any order reaches all its items. -/
theorem ordCost_sound (hs : Sizes g I) {t : Ty} (ht : ∀ c ∈ t.2, g.builtin c = false → Callable c) : ∀ (l : List Tm), (∀ c ∈ l, c ∈ t.2) → ∀ (V : Finset Nat) (σ0 : Nat → Tm),
    (DenAt I t V σ0).encard ≤ ordCost g t.1 V l
  | [], _, V, σ0 => by
    simp only [ordCost]
    split
    · next h =>
      have : DenAt I t V σ0 ⊆ {t.1.sub σ0} := by
        rintro x ⟨σ, _, ha, rfl⟩
        exact agree_sub ha h
      exact (Set.encard_le_encard this).trans (by simp)
    · exact le_top
  | c :: l, hl, V, σ0 => by
    have hc : c ∈ t.2 := hl c (by simp)
    have ih := ordCost_sound hs ht l (fun d hd => hl d (by simp [hd])) (V ∪ vars c)
    simp only [ordCost]
    split
    · next h => rw [Finset.union_eq_left.2 h] at ih ⊢; exact ih σ0
    · split
      · exact le_top
      · next hb =>
        classical
        have key : (DenAt I t V σ0).encard ≤ {y | y ∈ I ∧ hfn y = hfn c}.encard * ordCost g t.1 (V ∪ vars c) l := by
          let pick : Tm → Nat → Tm := fun y => if h : ∃ σ, Solution I t.2 σ ∧ Agree V σ σ0 ∧ c.sub σ = y then h.choose else σ0
          refine encard_cover (B := fun y => DenAt I t (V ∪ vars c) (pick y)) ?_ fun y _ => ih _
          rintro x ⟨σ, hσ, ha, rfl⟩
          have hex : ∃ τ, Solution I t.2 τ ∧ Agree V τ σ0 ∧ c.sub τ = c.sub σ := ⟨σ, hσ, ha, rfl⟩
          refine ⟨c.sub σ, ⟨hσ.2 c hc, ?_⟩, σ, hσ, ?_, rfl⟩
          · obtain ⟨k, as, rfl⟩ := ht c hc (by simpa using hb)
            simp [hfn]
          · have hp : pick (c.sub σ) = hex.choose := dif_pos hex
            rw [hp]
            obtain ⟨h1, h2, h3⟩ := hex.choose_spec
            intro v hv
            rcases Finset.mem_union.1 hv with hv | hv
            · rw [ha v hv, h2 v hv]
            · exact (sub_eq_on_vars h3 v hv).symm
        exact key.trans (mul_le_mul_left (hs c (ht c hc (by simpa using hb)) (by simpa using hb)) _)

theorem den_at (t : Ty) (σ0 : Nat → Tm) : DenAt I t ∅ σ0 = Den I t := by
  ext x
  constructor
  · rintro ⟨σ, h, _, e⟩; exact ⟨σ, h, e⟩
  · rintro ⟨σ, h, e⟩; exact ⟨σ, h, by simp [Agree], e⟩

/-! ### Property C65 -/

/-- **C65, simple types.**  If the variables in `V` are given, then the type has at most as many ground items as
the bound says. -/
theorem C65_types (hs : Sizes g I) {t : Ty} (ht : ∀ c ∈ t.2, g.builtin c = false → Callable c) (V : Finset Nat) (σ0 : Nat → Tm) :
    (DenAt I t V σ0).encard ≤ stypeBound g t.1 V t.2 := by
  obtain ⟨l, hl, e⟩ := (stb_best (g := g) t.1 _ V t.2.dedup rfl).2
  rw [stypeBound, e]
  exact ordCost_sound hs ht l (fun c hc => List.mem_dedup.1 (hl.subset hc)) V σ0

/-- **C65, best order.**  The bound is the least cost of an order of the constraints. -/
theorem C65_best (hd : Tm) (V : Finset Nat) (cs : List Tm) :
    (∀ l, l.Perm cs.dedup → stypeBound g hd V cs ≤ ordCost g hd V l) ∧ ∃ l, l.Perm cs.dedup ∧ stypeBound g hd V cs = ordCost g hd V l :=
  stb_best hd _ V _ rfl

/-- **C65, charts.**  The types of a chart have at most `size()` many ground items altogether. -/
theorem C65_chart (hs : Sizes g I) (ht : ∀ t ∈ g.chart, ∀ c ∈ t.2, Callable c) : (Cover I g.chart).encard ≤ chartSize g := by
  refine encard_sum (B := fun t => Den I t) (fun x ⟨t, h, hx⟩ => ⟨t, h, hx⟩) fun t h => ?_
  rw [← den_at t fun n => .var n]
  exact C65_types hs (fun c hc _ => ht t h c hc) ∅ _

/-- **C65, items.**  A program has at most `size()` many derivable items, if its chart comes from the type analysis. -/
theorem C65_items {W : Type} {p : List (WRule W)} {gt : TypeAn.Cfg} {L : Finset Nat} (Wd : TypeAn.World gt I) (hso : TypeAn.Sound gt I L)
    (hp : gt.rules = TypeAn.toTypeProgram p) (hin : ∀ t ∈ gt.inputs, vars t ⊆ L) (hD : 0 < gt.D) {f n k : Nat} (hL : ∀ n ∈ L, n < k)
    (hr : ∀ r ∈ p, TypeAn.WOk gt L k r) {k' : Nat} (e : TypeAn.runBasic gt f n k = some (g.chart, k'))
    (hs : Sizes g I) (ht : ∀ t ∈ g.chart, ∀ c ∈ t.2, Callable c) : {x | TypeAn.Derives p I x}.encard ≤ chartSize g :=
  (Set.encard_le_encard fun _ hx => TypeAn.C61_sound Wd hso hp hin hD hL hr e hx).trans (C65_chart hs ht)

/-! ### Queries -/

/-- the instances of a query that belong to a type, with some variables given -/
def QueryAt (I : Set Tm) (q : Tm) (t : Ty) (V : Finset Nat) (σ0 : Nat → Tm) : Set Tm :=
  {x | ∃ σ, Propagate.Ground σ ∧ Agree V σ σ0 ∧ x = q.sub σ ∧ x ∈ Den I t}

theorem callable_sub {c : Tm} (h : Callable c) (σ : Nat → Tm) : Callable (c.sub σ) := by
  obtain ⟨k, as, rfl⟩ := h
  exact ⟨k, as.map (·.sub σ), by simp⟩

theorem query_in {q : Tm} {t : Ty} (hd : ∀ n ∈ TypeAn.tvars t, n ∉ vars q) {V : Finset Nat} (hV : V ⊆ vars q) {σ0 : Nat → Tm} {x : Tm}
    (hx : x ∈ QueryAt I q t V σ0) : ∃ υ, Solution I t.2 υ ∧ Agree V υ σ0 ∧ t.1.sub υ = x ∧ q.sub υ = x := by
  classical
  obtain ⟨σ, hg, ha, e1, τ, hτ, e2⟩ := hx
  let υ : Nat → Tm := fun n => if n ∈ TypeAn.tvars t then τ n else σ n
  have c1 : ∀ u : Tm, vars u ⊆ TypeAn.tvars t → u.sub υ = u.sub τ := fun u hu => sub_congr fun n hn => if_pos (hu hn)
  have c2 : q.sub υ = q.sub σ := sub_congr fun n hn => if_neg fun h => hd n h hn
  refine ⟨υ, ⟨fun n => ?_, fun c hc => ?_⟩, fun v hv => ?_, ?_, ?_⟩
  · show vars (if _ then _ else _) = _
    split
    · exact hτ.1 n
    · exact hg n
  · rw [c1 c fun n hn => TypeAn.mem_tvars.2 (.inr ⟨c, hc, hn⟩)]; exact hτ.2 c hc
  · show (if _ then _ else _) = _
    rw [if_neg fun h => hd v h (hV hv)]; exact ha v hv
  · rw [c1 t.1 fun n hn => TypeAn.mem_tvars.2 (.inl hn), e2]
  · rw [c2, e1]

theorem boundAt_spec (hs : Sizes g I) {f : Nat} {q : Tm} {t : Ty} (ht : ∀ c ∈ t.2, Callable c) (hd : ∀ n ∈ TypeAn.tvars t, n ∉ vars q)
    {V : Finset Nat} (hV : V ⊆ vars q) (σ0 : Nat → Tm) {s s' : ℕ∞} {h' : Heap} {sig : Sig} (e : boundAt g f V q t noHeap s = some (h', s', sig)) :
    h' = noHeap ∧ sig = .done ∧ ∃ b, s' = s + b ∧ (QueryAt I q t V σ0).encard ≤ b := by
  obtain ⟨r, hsp, hrun⟩ := unify_run (h := noHeap) Subst.good_empty t.1 q
  have e2 := hrun _ _ _ _ e
  have hR : ∀ τ, Respects noHeap τ := fun τ n t hn => by simp [noHeap] at hn
  cases r with
  | none =>
    simp only [run, Option.some.injEq, Prod.mk.injEq] at e2
    obtain ⟨rfl, rfl, rfl⟩ := e2
    refine ⟨rfl, rfl, 0, by simp, ?_⟩
    rw [nonpos_iff_eq_zero, Set.encard_eq_zero]
    ext x
    simp only [Set.mem_empty_iff_false, iff_false]
    intro hx
    obtain ⟨υ, _, _, h1, h2⟩ := query_in hd hV hx
    cases hsp with
    | fail hf => exact hf υ (hR υ) (h1.trans h2.symm)
  | some bs =>
    cases hsp with
    | ok _ hg hr hn hdm hv =>
    have hu : unbindAll bs (bindAll noHeap bs) = noHeap := unbindAll_bindAll hn fun p _ => rfl
    simp only [run] at e2
    split at e2
    · cases e2
    · rename_i h1 s1 sg e3
      simp only [Option.some.injEq, Prod.mk.injEq] at e2
      obtain ⟨rfl, rfl, rfl⟩ := e2
      split at e3
      · cases e3
      · rename_i t' e4
        simp only [Option.some.injEq, Prod.mk.injEq] at e3
        obtain ⟨rfl, rfl, rfl⟩ := e3
        refine ⟨hu, rfl, _, rfl, ?_⟩
        obtain rfl := TypeAn.derefT_eq e4
        refine (Set.encard_le_encard ?_).trans (C65_types hs (t := (t.1.sub (res (bindAll noHeap bs)), t.2.map (·.sub (res (bindAll noHeap bs))))) (fun c hc _ => ?_) V σ0)
        · intro x hx
          obtain ⟨υ, h1, h2, h3, h4⟩ := query_in hd hV hx
          have hυ : Respects (bindAll noHeap bs) υ := (hr υ).2 ⟨hR υ, h3.trans h4.symm⟩
          refine ⟨υ, ⟨h1.1, fun c hc => ?_⟩, h2, ?_⟩
          · obtain ⟨d, hd1, rfl⟩ := List.mem_map.1 hc
            rw [hg.sub_res hυ]; exact h1.2 d hd1
          · exact (h3.symm.trans (hg.sub_res hυ _).symm)
        · obtain ⟨d, hd1, rfl⟩ := List.mem_map.1 hc
          exact callable_sub (ht d hd1) _

theorem forBound_spec (hs : Sizes g I) {f : Nat} {q : Tm} {V : Finset Nat} (hV : V ⊆ vars q) (σ0 : Nat → Tm) : ∀ {T : List Ty},
    (∀ t ∈ T, (∀ c ∈ t.2, Callable c) ∧ ∀ n ∈ TypeAn.tvars t, n ∉ vars q) → ∀ {s s' : ℕ∞} {h' : Heap} {sig : Sig},
    Solver.forEach T (boundAt g f V q) noHeap s = some (h', s', sig) →
    ∃ b, s' = s + b ∧ {x | ∃ t ∈ T, x ∈ QueryAt I q t V σ0}.encard ≤ b
  | [], _, s, s', h', sig, e => by
    simp only [Solver.forEach, Option.some.injEq, Prod.mk.injEq] at e
    exact ⟨0, by simp [e.2.1], by simp⟩
  | t :: T, hT, s, s', h', sig, e => by
    simp only [Solver.forEach] at e
    split at e
    · cases e
    · rename_i h1 s1 e1
      obtain ⟨rfl, -, b, rfl, hb⟩ := boundAt_spec hs (hT t (by simp)).1 (hT t (by simp)).2 hV σ0 e1
      obtain ⟨c, rfl, hc⟩ := forBound_spec hs hV σ0 (fun t h => hT t (by simp [h])) e
      refine ⟨b + c, by rw [add_assoc], ?_⟩
      have : {x | ∃ t' ∈ t :: T, x ∈ QueryAt I q t' V σ0} ⊆ QueryAt I q t V σ0 ∪ {x | ∃ t ∈ T, x ∈ QueryAt I q t V σ0} := by
        rintro x ⟨t', h, hx⟩
        rcases List.mem_cons.1 h with rfl | h
        · exact .inl hx
        · exact .inr ⟨t', h, hx⟩
      exact (Set.encard_le_encard this).trans ((Set.encard_union_le _ _).trans (add_le_add hb hc))
    · rename_i r hne e1
      obtain ⟨h1, s1, sg⟩ := r
      obtain ⟨-, rfl, -⟩ := boundAt_spec hs (hT t (by simp)).1 (hT t (by simp)).2 hV σ0 e1
      exact (hne _ _ rfl).elim

/-- **C65, queries.**  `type_bound` bounds the number of items that are instances of a query and belong to the
types at hand, when some variables of the query are given. -/
theorem C65_query (hs : Sizes g I) {f : Nat} {q : Tm} {V : Finset Nat} (hV : V ⊆ vars q) (σ0 : Nat → Tm) {T : List Ty}
    (hT : ∀ t ∈ T, (∀ c ∈ t.2, Callable c) ∧ ∀ n ∈ TypeAn.tvars t, n ∉ vars q) {b : ℕ∞} (e : typeBound g f V q T = some b) :
    {x | ∃ σ, Propagate.Ground σ ∧ Agree V σ σ0 ∧ x = q.sub σ ∧ x ∈ Cover I T}.encard ≤ b := by
  unfold typeBound at e
  split at e
  · rename_i h s sg e1
    cases e
    obtain ⟨b', rfl, h1⟩ := forBound_spec hs hV σ0 hT e1
    rw [zero_add]
    refine (Set.encard_le_encard ?_).trans h1
    rintro x ⟨σ, h1, h2, h3, t, ht, hx⟩
    exact ⟨t, ht, σ, h1, h2, h3, hx⟩
  · cases e

/-- **C65, `type_bound`.**  The number of ground items of a query type `s` that belong to the chart, when some variables
of its head are given, is at most `type_bound(S, s, V)`, which intersects a renamed copy of `s` with the chart. -/
theorem C65_type_bound {gt : TypeAn.Cfg} {L : Finset Nat} (Wd : TypeAn.World gt I) (hso : TypeAn.Sound gt I L)
    (hin : ∀ t ∈ gt.inputs, vars t ⊆ L) (hD : 0 < gt.D) {f k : Nat} (hL : ∀ n ∈ L, n < k) (hch : ∀ t ∈ g.chart, TypeAn.User gt t.1)
    {s : Ty} (hu : TypeAn.User gt s.1) (hq : ∀ c ∈ s.2, Callable c) {T : List Ty} {k' : Nat}
    (ei : TypeAn.intersect gt f (TypeAn.freshT k s).2 g.chart [(TypeAn.freshT k s).1] = some (T, k'))
    (hT : ∀ t ∈ T, (∀ c ∈ t.2, Callable c) ∧ ∀ n ∈ TypeAn.tvars t, n ∉ vars s.1) (hs : Sizes g I) {V : Finset Nat} (hV : V ⊆ vars s.1)
    (σ0 : Nat → Tm) {b : ℕ∞} (e : typeBound g f V s.1 T = some b) :
    {x | x ∈ DenAt I s V σ0 ∧ x ∈ Cover I g.chart}.encard ≤ b := by
  refine (Set.encard_le_encard ?_).trans (C65_query hs hV σ0 hT e)
  rintro x ⟨⟨σ, h1, h2, h3⟩, h4⟩
  refine ⟨σ, h1.1, h2, h3, ?_⟩
  have hk := TypeAn.freshT_le k s
  refine TypeAn.C61_intersect Wd hso hin hD (fun n hn => (hL n hn).trans_le hk) hch (Q := [(TypeAn.freshT k s).1]) (fun r hr => ?_) ei
    (List.mem_singleton.2 rfl) ?_ h4
  · rw [List.mem_singleton.1 hr]
    refine ⟨fun n hn => ?_, TypeAn.user_fresh hu, fun c hc => ?_⟩
    · have := TypeAn.freshT_vars k s n hn
      exact ⟨fun hnl => absurd (hL n hnl) (by omega), this.2⟩
    · obtain ⟨ρ, e2, _⟩ := TypeAn.freshT_spec k s
      rw [e2] at hc
      obtain ⟨d, hd, rfl⟩ := List.mem_map.1 hc
      exact callable_sub (hq d hd) _
  · rw [TypeAn.den_fresh]
    exact ⟨σ, h1, h3⟩

/-! ### Running through the subgoals of a rule: specification -/

/-- A plan for finding all instances of a rule: which subgoal is next, depending on the items found so far. -/
inductive Plan
  | stop
  | pick (b : Tm) (next : Tm → Plan)

/-- The plan looks up every subgoal once, whatever items of `D` are found. -/
def Plan.Runs (D : Set Tm) : Plan → List Tm → Finset Nat → (Nat → Tm) → Prop
  | .stop, B, _, _ => B = []
  | .pick b next, B, V, σ0 => b ∈ B ∧ ∀ σ, Propagate.Ground σ → Agree V σ σ0 → b.sub σ ∈ D →
      (next (b.sub σ)).Runs D (B.erase b) (V ∪ vars b) σ

/-- The states that the plan passes through: the lists of items found so far. -/
def Plan.visits (D : Set Tm) : Plan → Finset Nat → (Nat → Tm) → Set (List Tm)
  | .stop, _, _ => {[]}
  | .pick b next, V, σ0 => {[]} ∪ {l | ∃ σ, Propagate.Ground σ ∧ Agree V σ σ0 ∧ b.sub σ ∈ D ∧
      ∃ l' ∈ (next (b.sub σ)).visits D (V ∪ vars b) σ, l = b.sub σ :: l'}

/-- The instances of a rule: the items of `D` that its subgoals become. -/
def Instances (D : Set Tm) (B : List Tm) : Set (List Tm) :=
  {l | ∃ σ, Propagate.Ground σ ∧ (∀ b ∈ B, b.sub σ ∈ D) ∧ l = B.map (·.sub σ)}

/-! ### Unification with a flat head -/

/-- values over `Q` only -/
def Over (Q : Finset Nat) (s : Heap) : Prop := ∀ n u, s n = some u → vars u ⊆ Q

/-- what unification with `x` on the left may do to a substitution -/
structure Grows (Q : Finset Nat) (s r : Heap) (K : Finset Nat) : Prop where
  over : Over Q r
  keep : ∀ n, s n ≠ none → r n ≠ none
  keys : ∀ n, r n ≠ none → s n ≠ none ∨ n ∈ Q ∨ n ∈ K
  bound : ∀ n ∈ K, n ∉ Q → r n ≠ none

/-- over `Q`, or a variable -/
def Flat (Q : Finset Nat) (x : Tm) : Prop := vars x ⊆ Q ∨ ∃ n, x = .var n

theorem mgu_over (Q : Finset Nat) : ∀ f,
    (∀ s x y r, Over Q s → Flat Q x → vars y ⊆ Q → Subst.mguF f s x y = some (some r) → Grows Q s r (vars x)) ∧
    (∀ s n y r, Over Q s → vars y ⊆ Q → Subst.mbindF f s n y = some (some r) → Grows Q s r {n}) ∧
    (∀ s xs ys r, Over Q s → (∀ x ∈ xs, Flat Q x) → varsL ys ⊆ Q → xs.length = ys.length → Subst.mguLF f s xs ys = some (some r) → Grows Q s r (varsL xs)) := by
  intro f
  induction f with
  | zero =>
    exact ⟨fun s x y r _ _ _ e => by simp [Subst.mguF] at e, fun s n y r _ _ e => by simp [Subst.mbindF] at e,
      fun s xs ys r _ _ _ _ e => by simp [Subst.mguLF] at e⟩
  | succ f ih =>
    obtain ⟨ih1, ih2, ih3⟩ := ih
    have refl : ∀ s (K : Finset Nat), Over Q s → K ⊆ Q → Grows Q s s K := fun s K ho hK =>
      ⟨ho, fun _ h => h, fun _ h => .inl h, fun n hn hq => (hq (hK hn)).elim⟩
    refine ⟨fun s x y r ho hx hy e => ?_, fun s n y r ho hy e => ?_, fun s xs ys r ho hx hy hl e => ?_⟩
    · rw [Subst.mguF.eq_def] at e
      simp only at e
      split at e
      · rename_i hxy
        simp only [Option.some.injEq] at e
        subst e hxy
        exact refl _ _ ho hy
      · cases x with
        | var n =>
          simp only [vars_var]
          cases hn : s n with
          | some t =>
            simp only [hn] at e
            have := ih1 _ _ _ _ ho (.inl (ho n t hn)) hy e
            exact ⟨this.over, this.keep, fun m hm => (this.keys m hm).imp_right fun h => .inl (h.elim id fun h => ho n t hn h),
              fun m hm _ => by rw [Finset.mem_singleton.1 hm]; exact this.keep n (by simp [hn])⟩
          | none =>
            simp only [hn] at e
            cases y with
            | var m =>
              cases hm : s m with
              | some t =>
                simp only [hm] at e
                simpa using ih1 _ _ _ _ ho (.inr ⟨n, rfl⟩) (ho m t hm) e
              | none => simp only [hm] at e; exact ih2 _ _ _ _ ho hy e
            | con c => exact ih2 _ _ _ _ ho hy e
            | app bs => exact ih2 _ _ _ _ ho hy e
        | con c =>
          cases y with
          | var m =>
            have := ih1 _ _ _ _ ho (.inl hy) (by simp) e
            exact ⟨this.over, this.keep, fun n hn => (this.keys n hn).imp_right fun h => .inl (h.elim id fun h => hy h), by simp⟩
          | con c' => simp at e
          | app bs => simp at e
        | app as =>
          have hx : vars (.app as) ⊆ Q := hx.elim id fun ⟨n, h⟩ => by cases h
          cases y with
          | var m =>
            have := ih1 _ _ _ _ ho (.inl hy) hx e
            exact ⟨this.over, this.keep, fun n hn => (this.keys n hn).imp_right fun h => .inl (h.elim id fun h => hy h), fun n hn hq => (hq (hx hn)).elim⟩
          | con c' => simp at e
          | app bs =>
            simp only at e
            split at e
            · rename_i hl
              have hxs : ∀ x ∈ as, Flat Q x := fun x h => .inl fun n hn => hx (by rw [vars_app]; exact mem_varsL.2 ⟨x, h, hn⟩)
              simpa using ih3 _ _ _ _ ho hxs (by simpa using hy) hl e
            · simp at e
    · rw [Subst.mbindF] at e
      split at e
      · cases e
      · simp at e
      · simp only [Option.some.injEq] at e
        subst e
        refine ⟨fun m u hm => ?_, fun m hm => ?_, fun m hm => ?_, fun m hm _ => ?_⟩
        · by_cases h : m = n
          · subst h; simp [Heap.upd] at hm; subst hm; exact hy
          · simp [Heap.upd, h] at hm; exact ho m u hm
        · by_cases h : m = n
          · simp [Heap.upd, h]
          · simpa [Heap.upd, h] using hm
        · by_cases h : m = n
          · exact .inr (.inr (by simp [h]))
          · exact .inl (by simpa [Heap.upd, h] using hm)
        · rw [Finset.mem_singleton.1 hm]; simp [Heap.upd]
    · cases xs with
      | nil =>
        cases ys <;> simp [Subst.mguLF] at e <;> subst e <;> exact refl _ _ ho (by simp)
      | cons x xs =>
        cases ys with
        | nil => simp at hl
        | cons y ys =>
          rw [Subst.mguLF] at e
          split at e
          · cases e
          · simp at e
          · rename_i s' e1
            simp only [varsL_cons, Finset.union_subset_iff] at hy
            have h1 := ih1 _ _ _ _ ho (hx x (by simp)) hy.1 e1
            have h2 := ih3 _ _ _ _ h1.over (fun x h => hx x (by simp [h])) hy.2 (by simpa using hl) e
            refine ⟨h2.over, fun n hn => h2.keep n (h1.keep n hn), fun n hn => ?_, fun n hn hq => ?_⟩
            · rcases h2.keys n hn with h | h | h
              · rcases h1.keys n h with h | h | h
                · exact .inl h
                · exact .inr (.inl h)
                · exact .inr (.inr (by simp [h]))
              · exact .inr (.inl h)
              · exact .inr (.inr (by simp [h]))
            · rw [varsL_cons] at hn
              rcases Finset.mem_union.1 hn with hn | hn
              · exact h2.keep n (h1.bound n hn hq)
              · exact h2.bound n hn hq

theorem deref_over {Q : Finset Nat} {h : Heap} (ho : Over Q h) : ∀ {f : Nat} {t t' : Tm}, (∀ n ∈ vars t, n ∈ Q ∨ h n ≠ none) →
    derefF h f t = some t' → vars t' ⊆ Q
  | 0, _, _, _, e => by simp [derefF] at e
  | f + 1, .var n, t', hv, e => by
    simp only [derefF] at e
    split at e
    · rename_i u hu
      exact deref_over ho (fun m hm => .inl (ho n u hu hm)) e
    · rename_i hu
      simp only [Option.some.injEq] at e
      subst e
      rcases hv n (by simp) with h1 | h1
      · simpa using h1
      · exact (h1 hu).elim
  | f + 1, .con c, t', _, e => by simp only [derefF, Option.some.injEq] at e; subst e; simp
  | f + 1, .app as, t', hv, e => by
    simp only [derefF, Option.map_eq_some_iff] at e
    obtain ⟨bs, e1, rfl⟩ := e
    rw [allSome_eq_some] at e1
    intro n hn
    rw [vars_app, mem_varsL] at hn
    obtain ⟨b, hb, hn⟩ := hn
    have : some b ∈ as.map (derefF h f) := by rw [e1]; exact List.mem_map.2 ⟨b, hb, rfl⟩
    obtain ⟨a, ha, e2⟩ := List.mem_map.1 this
    exact deref_over ho (fun m hm => hv m (by rw [vars_app]; exact mem_varsL.2 ⟨a, ha, hm⟩)) e2 hn

/-- a functor and arguments that are ground or variables -/
def FlatHead (x : Tm) : Prop := ∃ c as, x = .app (.con c :: as) ∧ ∀ a ∈ as, vars a = ∅ ∨ ∃ n, a = .var n

theorem allSome_spec {α β : Type*} {F : α → Option β} {l : List α} {bs : List β} (e : allSome (l.map F) = some bs) :
    (∀ b ∈ bs, ∃ a ∈ l, F a = some b) ∧ ∀ a ∈ l, ∃ b ∈ bs, F a = some b := by
  rw [allSome_eq_some] at e
  refine ⟨fun b hb => ?_, fun a ha => ?_⟩
  · have : some b ∈ l.map F := by rw [e]; exact List.mem_map.2 ⟨b, hb, rfl⟩
    simpa using this
  · have : F a ∈ bs.map some := by rw [← e]; exact List.mem_map.2 ⟨a, ha, rfl⟩
    obtain ⟨b, hb, h⟩ := List.mem_map.1 this
    exact ⟨b, hb, h.symm⟩

/-- What there is to know about the substitution for a flat head `x` and a subgoal `p`. -/
theorem mgu_flat {f : Nat} {x p : Tm} (hx : FlatHead x) (hp : ∀ m, p ≠ .var m) {h : Heap} (e : Subst.mguF f noHeap x p = some (some h)) :
    ∃ δ : Nat → Tm, (∀ g t t', Subst.callF h g t = some t' → t' = t.sub δ) ∧
      (∀ υ : Nat → Tm, x.sub υ = p.sub υ → ∀ t : Tm, (t.sub δ).sub υ = t.sub υ) ∧
      (∀ n, n ∈ vars x ∨ n ∈ vars p → vars (δ n) ⊆ vars p) ∧ ∀ n, n ∉ vars x → n ∉ vars p → δ n = .var n := by
  obtain ⟨δ, h1, -, -, h4⟩ := Subst.C05_mgu e
  have hcall : ∀ g t t', Subst.callF h g t = some t' → t' = t.sub δ := fun g t t' e => by
    obtain ⟨M, hM⟩ := h1 t
    have := hM (max M g) (le_max_left _ _)
    have e2 : Subst.callF h (max M g) t = some t' := deref_mono e (le_max_right _ _)
    rw [this] at e2
    exact (Option.some.inj e2).symm
  have hgr : Grows (vars p) noHeap h (vars x) := by
    obtain ⟨c, as, rfl, ha⟩ := hx
    have ho : Over (vars p) noHeap := fun n u hn => by simp [noHeap] at hn
    cases f with
    | zero => simp [Subst.mguF] at e
    | succ f =>
      rw [Subst.mguF.eq_def] at e
      simp only at e
      split at e
      · rename_i hxy
        simp only [Option.some.injEq] at e
        subst e hxy
        exact ⟨ho, fun _ h => h, fun _ h => .inl h, fun n hn hq => (hq hn).elim⟩
      · cases p with
        | var m => exact (hp m rfl).elim
        | con c' => simp at e
        | app bs =>
          simp only at e
          split at e
          · rename_i hl
            have hxs : ∀ x ∈ Tm.con c :: as, Flat (vars (.app bs)) x := fun x h => by
              rcases List.mem_cons.1 h with rfl | h
              · exact .inl (by simp)
              · rcases ha x h with h | h
                · exact .inl (by simp [h])
                · exact .inr h
            simpa using (mgu_over (vars (.app bs)) f).2.2 _ _ _ _ ho hxs (by simp) hl e
          · simp at e
  refine ⟨δ, hcall, h4, fun n hn => ?_, fun n h2 h3 => ?_⟩
  · obtain ⟨M, hM⟩ := h1 (.var n)
    have := hM M (le_refl _)
    rw [sub_var] at this
    refine deref_over hgr.over (fun m hm => ?_) this
    rw [vars_var, Finset.mem_singleton] at hm
    subst hm
    by_cases hp : m ∈ vars p
    · exact .inl hp
    · exact .inr (hgr.bound m (hn.resolve_right hp) hp)
  · have hn : h n = none := by
      by_contra hc
      rcases hgr.keys n hc with h | h | h
      · simp [noHeap] at h
      · exact h3 h
      · exact h2 h
    have : Subst.callF h 1 (.var n) = some (.var n) := by simp [Subst.callF, derefF, hn]
    have := hcall _ _ _ this
    rw [sub_var] at this
    exact this.symm

/-! ### Running through the subgoals of a rule: proof -/

theorem sumM_spec : ∀ {l : List (Option ℕ∞)} {m : ℕ∞}, sumM l = some m → (∀ x ∈ l, x ≠ none) ∧ m = (l.map (·.getD 0)).sum
  | [], m, e => by simp [sumM] at e; simp [← e]
  | x :: l, m, e => by
    simp only [sumM] at e
    split at e
    · rename_i a b e1
      obtain ⟨h1, h2⟩ := sumM_spec e1
      cases e
      refine ⟨fun y hy => ?_, by simp [h2]⟩
      rcases List.mem_cons.1 hy with rfl | hy
      · simp
      · exact h1 y hy
    · cases e

theorem minM_spec : ∀ {l : List (Option ℕ∞)} {m : ℕ∞}, minM l = some m → (∀ x ∈ l, ∃ a, x = some a ∧ m ≤ a) ∧ (l ≠ [] → some m ∈ l)
  | [], m, e => by simp
  | x :: l, m, e => by
    simp only [minM] at e
    split at e
    · rename_i a b e1
      obtain ⟨h1, h2⟩ := minM_spec e1
      cases e
      refine ⟨fun y hy => ?_, fun _ => ?_⟩
      · rcases List.mem_cons.1 hy with rfl | hy
        · exact ⟨a, rfl, min_le_left _ _⟩
        · obtain ⟨c, rfl, hc⟩ := h1 y hy
          exact ⟨c, rfl, (min_le_right _ _).trans hc⟩
      · cases l with
        | nil =>
          simp only [minM, Option.some.injEq] at e1
          subst e1
          simp
        | cons y l =>
          rcases min_choice a b with h | h
          · rw [h]; simp
          · rw [h]; exact List.mem_cons_of_mem _ (h2 (by simp))
    · cases e

/-- What the bound on the running time assumes: the types of the chart are flat and have no variable in common
with the rule; they cover the items that the subgoals look up, except for builtins; and `rewrites` loses
nothing, given constraints without the variables `L` of the rewriting rules. -/
structure Typed (g : Cfg) (I : Set Tm) (L : Set Nat) (D : Set Tm) (body : List Tm) : Prop where
  flat : ∀ s ∈ g.chart, FlatHead s.1
  safe : ∀ s ∈ g.chart, ∀ c ∈ s.2, Callable c ∧ vars c ⊆ vars s.1
  apart : ∀ s ∈ g.chart, ∀ n ∈ vars s.1, ∀ b ∈ body, n ∉ vars b
  terms : ∀ b ∈ body, ∀ m, b ≠ .var m
  cover : ∀ b ∈ body, ∀ σ, Propagate.Ground σ → b.sub σ ∈ D → b.sub σ ∈ Cover I g.chart ∨ g.builtin b = true ∧ b.sub σ ∈ I
  own : ∀ b ∈ body, Avoids L b
  simp : ∀ R σ, (∀ c ∈ R.2, Avoids L c) → Solution I R.2 σ →
    g.simp R ≠ .none ∧ ∀ hd C, g.simp R = .ty hd C → Solution I C σ ∧ ∀ c ∈ C, Avoids L c

/-- the constraints that `typeTime` goes on with -/
def restC (g : Cfg) (f : Nat) (C : List Tm) (ht : Heap × Ty) : Option (List Tm) :=
  match allSome (C.map (Subst.callF ht.1 f)) with
  | none => none
  | some C' => match g.simp (ht.2.1, ht.2.2 ++ C') with
    | .ty _ C2 => some C2.dedup
    | _ => none

theorem typeTime_rest {f : Nat} {C C2 : List Tm} {V : Finset Nat} {next : List Tm → Option ℕ∞} {ht : Heap × Ty} (e : restC g f C ht = some C2) :
    typeTime g f C V next ht = (next C2).map (stypeBound g ht.2.1 V ht.2.2 * ·) := by
  unfold restC at e
  unfold typeTime
  split at e
  · cases e
  · rename_i C' e1
    rw [e1]
    split at e
    · rename_i C3 e2
      cases e
      simp only [e2]
      cases next C3.dedup <;> rfl
    · cases e

theorem typeTime_ne {f : Nat} {C : List Tm} {V : Finset Nat} {next : List Tm → Option ℕ∞} {ht : Heap × Ty} (e : typeTime g f C V next ht ≠ none) :
    ∃ C', allSome (C.map (Subst.callF ht.1 f)) = some C' ∧ (g.simp (ht.2.1, ht.2.2 ++ C') = .none ∨ ∃ hd C2, g.simp (ht.2.1, ht.2.2 ++ C') = .ty hd C2) := by
  unfold typeTime at e
  split at e
  · exact (e rfl).elim
  · rename_i C' e1
    refine ⟨C', e1, ?_⟩
    split at e
    · rename_i e2; exact .inl e2
    · exact (e rfl).elim
    · exact (e rfl).elim
    · rename_i hd C2 e2; exact .inr ⟨hd, C2, e2⟩

theorem matches_spec {f : Nat} {p : Tm} : ∀ {ch : List Ty} {ts : List (Heap × Ty)}, matches_ f p ch = some ts → ∀ s ∈ ch, (∃ υ : Nat → Tm, s.1.sub υ = p.sub υ) →
    ∃ h bd hd, (h, (hd, bd)) ∈ ts ∧ Subst.mguF f noHeap s.1 p = some (some h) ∧ Subst.callF h f p = some hd ∧ allSome (s.2.map (Subst.callF h f)) = some bd
  | [], ts, _, s, hs, _ => by simp at hs
  | s' :: ch, ts, e, s, hs, hu => by
    rw [matches_] at e
    split at e
    · cases e
    · rename_i e1
      rcases List.mem_cons.1 hs with rfl | hs
      · exact (((Subst.C05_fail e1).1 rfl) hu).elim
      · exact matches_spec e s hs hu
    · rename_i h e1
      split at e
      · rename_i hd bd ts' e2 e3 e4
        cases e
        rcases List.mem_cons.1 hs with rfl | hs
        · exact ⟨h, bd, hd, by simp, e1, e2, e3⟩
        · obtain ⟨h', bd', hd', hm, r⟩ := matches_spec e4 s hs hu
          exact ⟨h', bd', hd', List.mem_cons_of_mem _ hm, r⟩
      · cases e

variable {L : Set Nat} {D : Set Tm} {body : List Tm}

/-- the variables of the subgoals -/
def bvars (body : List Tm) : Finset Nat := varsL body

/-- Every item that is found belongs to a type that the look-up returns, and the next constraints hold. -/
theorem answer (ty : Typed g I L D body) {f : Nat} {p : Tm} (hp : p ∈ body) {ts : List (Heap × Ty)} (e : lookup g f p = some ts)
    {C : List Tm} {V : Finset Nat} (hV : V ⊆ bvars body) {σ0 : Nat → Tm} (hC : ∀ σ, Propagate.Ground σ → Agree V σ σ0 → Solution I C σ)
    (hCL : ∀ c ∈ C, Avoids L c) {next : List Tm → Option ℕ∞} (hall : ∀ ht ∈ ts, typeTime g f C V next ht ≠ none)
    {σ : Nat → Tm} (hg : Propagate.Ground σ) (ha : Agree V σ σ0) (hx : p.sub σ ∈ D) :
    ∃ ht ∈ ts, p.sub σ ∈ DenAt I ht.2 V σ0 ∧ (∀ c ∈ ht.2.2, g.builtin c = false → Callable c) ∧
      ∃ C2, restC g f C ht = some C2 ∧ (∀ τ, Propagate.Ground τ → Agree (V ∪ vars p) τ σ → Solution I C2 τ) ∧ ∀ c ∈ C2, Avoids L c := by
  classical
  unfold lookup at e
  split at e
  · cases e
  · rename_i ms em
    cases e
    rcases ty.cover p hp σ hg hx with ⟨s, hs, υ0, hυ0, e1⟩ | ⟨hb, hI⟩
    · -- a type of the chart
      have hdis : ∀ n ∈ vars s.1, n ∉ bvars body := fun n hn h => by
        obtain ⟨b, hb, h⟩ := mem_varsL.1 h
        exact ty.apart s hs n hn b hb h
      have hpb : vars p ⊆ bvars body := fun n hn => mem_varsL.2 ⟨p, hp, hn⟩
      -- `mixv τ` takes the type's variables from the solution and the others from `τ`
      let mixv : (Nat → Tm) → Nat → Tm := fun τ n => if n ∈ vars s.1 then υ0 n else τ n
      have hmg : ∀ τ, Propagate.Ground τ → Propagate.Ground (mixv τ) := fun τ hτ n => by
        show vars (if _ then _ else _) = _
        split
        · exact hυ0.1 n
        · exact hτ n
      have hms : ∀ τ (u : Tm), vars u ⊆ vars s.1 → u.sub (mixv τ) = u.sub υ0 := fun τ u hu => sub_congr fun n hn => if_pos (hu hn)
      have hmb : ∀ τ n, n ∈ bvars body → mixv τ n = τ n := fun τ n hn => if_neg fun h => hdis n h hn
      have hmp : ∀ τ, p.sub (mixv τ) = p.sub τ := fun τ => sub_congr fun n hn => hmb τ n (hpb hn)
      have huni : ∀ τ, Agree (vars p) τ σ → s.1.sub (mixv τ) = p.sub (mixv τ) := fun τ hτ => by
        rw [hms τ _ (Finset.Subset.refl _), ← e1, hmp]
        exact sub_congr fun n hn => (hτ n hn).symm
      obtain ⟨h, bd, hd, hm, e2, e3, e4⟩ := matches_spec em s hs ⟨_, huni σ fun _ _ => rfl⟩
      obtain ⟨δ, hcall, hfac, hover, hid⟩ := mgu_flat (ty.flat s hs) (ty.terms p hp) e2
      obtain ⟨hb1, hb2⟩ := allSome_spec e4
      have hmem : (h, (hd, bd)) ∈ (if g.builtin p then (noHeap, (p, [p])) :: ms else ms) := by
        split
        · exact List.mem_cons_of_mem _ hm
        · exact hm
      have hdp : hd = p.sub δ := hcall _ _ _ e3
      refine ⟨(h, (hd, bd)), hmem, ⟨mixv σ, ⟨hmg σ hg, fun c hc => ?_⟩, fun v hv => ?_, ?_⟩, fun c hc _ => ?_, ?_⟩
      · obtain ⟨a, ha', e5⟩ := hb1 c hc
        rw [hcall _ _ _ e5, hfac _ (huni σ fun _ _ => rfl), hms σ a (ty.safe s hs a ha').2]
        exact hυ0.2 a ha'
      · rw [hmb σ v (hV hv)]; exact ha v hv
      · show _ = hd.sub _
        rw [hdp, hfac _ (huni σ fun _ _ => rfl), hmp]
      · obtain ⟨a, ha', e5⟩ := hb1 c hc
        rw [hcall _ _ _ e5]
        exact callable_sub (ty.safe s hs a ha').1 _
      · -- the constraints
        obtain ⟨C', e5, hres⟩ := typeTime_ne (hall _ hmem)
        · obtain ⟨hc1, hc2⟩ := allSome_spec e5
          have sat : ∀ τ, Propagate.Ground τ → Agree (V ∪ vars p) τ σ → Solution I (bd ++ C') τ := by
            intro τ hτ hag
            have hagp : Agree (vars p) τ σ := fun n hn => hag n (by simp [hn])
            refine ⟨hτ, fun c hc => ?_⟩
            rcases List.mem_append.1 hc with hc | hc
            · obtain ⟨a, ha', e6⟩ := hb1 c hc
              have e7 := hcall _ _ _ e6
              have hvc : vars c ⊆ vars p := fun n hn => by
                rw [e7, mem_vars_sub] at hn
                obtain ⟨m, hm1, hm2⟩ := hn
                exact hover m (.inl ((ty.safe s hs a ha').2 hm1)) hm2
              have : c.sub τ = c.sub (mixv τ) := sub_congr fun n hn => (hmb τ n (hpb (hvc hn))).symm
              rw [this, e7, hfac _ (huni τ hagp), hms τ a (ty.safe s hs a ha').2]
              exact hυ0.2 a ha'
            · obtain ⟨a, ha', e6⟩ := hc1 c hc
              rw [hcall _ _ _ e6, Tm.sub_sub]
              refine (hC _ (fun n => Propagate.vars_sub_ground hτ _) fun v hv => ?_).2 a ha'
              rw [← ha v hv, ← hag v (by simp [hv])]
              by_cases hvp : v ∈ vars p
              · have h1 : (δ v).sub τ = (δ v).sub (mixv τ) := sub_congr fun n hn => (hmb τ n (hpb (hover v (.inr hvp) hn))).symm
                have h2 := hfac _ (huni τ hagp) (.var v)
                simp only [sub_var] at h2
                show (δ v).sub τ = τ v
                rw [h1, h2, hmb τ v (hV hv)]
              · show (δ v).sub τ = τ v
                rw [hid v (fun h => hdis v h (hV hv)) hvp, sub_var]
          have av : ∀ c ∈ bd ++ C', Avoids L c := by
            intro c hc n hn
            rcases List.mem_append.1 hc with hc | hc
            · obtain ⟨a, ha', e6⟩ := hb1 c hc
              rw [hcall _ _ _ e6, mem_vars_sub] at hn
              obtain ⟨m, hm1, hm2⟩ := hn
              exact ty.own p hp n (hover m (.inl ((ty.safe s hs a ha').2 hm1)) hm2)
            · obtain ⟨a, ha', e6⟩ := hc1 c hc
              rw [hcall _ _ _ e6, mem_vars_sub] at hn
              obtain ⟨m, hm1, hm2⟩ := hn
              by_cases h1 : m ∈ vars s.1 ∨ m ∈ vars p
              · exact ty.own p hp n (hover m h1 hm2)
              · rw [hid m (fun h => h1 (.inl h)) fun h => h1 (.inr h)] at hm2
                rw [vars_var, Finset.mem_singleton] at hm2
                exact hm2 ▸ hCL a ha' m hm1
          obtain ⟨hnn, hty⟩ := ty.simp (hd, bd ++ C') σ av (sat σ hg fun _ _ => rfl)
          obtain ⟨hd2, C2, e6⟩ := hres.resolve_left hnn
          refine ⟨C2.dedup, by simp only [restC, e5, e6], fun τ hτ hag => ?_, fun c hc => (hty _ _ e6).2 c (List.mem_dedup.1 hc)⟩
          have h3 := ((ty.simp (hd, bd ++ C') τ av (sat τ hτ hag)).2 _ _ e6).1
          exact ⟨h3.1, fun c hc => h3.2 c (List.mem_dedup.1 hc)⟩
    · -- a builtin
      refine ⟨(noHeap, (p, [p])), by simp [hb], ⟨σ, ⟨hg, fun c hc => ?_⟩, ha, rfl⟩, fun c hc h => ?_, ?_⟩
      · rw [List.mem_singleton.1 hc]; exact hI
      · rw [List.mem_singleton.1 hc, hb] at h; cases h
      · obtain ⟨C', e5, hres⟩ := typeTime_ne (hall (noHeap, (p, [p])) (by simp [hb]))
        · obtain ⟨hc1, hc2⟩ := allSome_spec e5
          have hcall : ∀ t t', Subst.callF noHeap f t = some t' → t' = t := fun t t' e => by
            rw [deref_eq_sub e, Unfold.res_noHeap, sub_id]
          have sat : ∀ τ, Propagate.Ground τ → Agree (V ∪ vars p) τ σ → Solution I ([p] ++ C') τ := by
            intro τ hτ hag
            refine ⟨hτ, fun c hc => ?_⟩
            rcases List.mem_append.1 hc with hc | hc
            · rw [List.mem_singleton.1 hc, sub_congr fun n hn => hag n (by simp [hn])]; exact hI
            · obtain ⟨a, ha', e6⟩ := hc1 c hc
              rw [hcall _ _ e6]
              exact (hC τ hτ fun v hv => (hag v (by simp [hv])).trans (ha v hv)).2 a ha'
          have av : ∀ c ∈ [p] ++ C', Avoids L c := by
            intro c hc
            rcases List.mem_append.1 hc with hc | hc
            · rw [List.mem_singleton.1 hc]; exact ty.own p hp
            · obtain ⟨a, ha', e6⟩ := hc1 c hc
              rw [hcall _ _ e6]; exact hCL a ha'
          obtain ⟨hnn, hty⟩ := ty.simp (p, [p] ++ C') σ av (sat σ hg fun _ _ => rfl)
          obtain ⟨hd2, C2, e6⟩ := hres.resolve_left hnn
          refine ⟨C2.dedup, by simp only [restC, e5, e6], fun τ hτ hag => ?_, fun c hc => (hty _ _ e6).2 c (List.mem_dedup.1 hc)⟩
          have h3 := ((ty.simp (p, [p] ++ C') τ av (sat τ hτ hag)).2 _ _ e6).1
          exact ⟨h3.1, fun c hc => h3.2 c (List.mem_dedup.1 hc)⟩

/-- Items with what follows them, counted by types. -/
theorem count_step (hs : Sizes g I) {f : Nat} {C : List Tm} {V : Finset Nat} {σ0 : Nat → Tm} {next : List Tm → Option ℕ∞} {ts : List (Heap × Ty)} {best : ℕ∞}
    (e : sumM (ts.map (typeTime g f C V next)) = some best) {A : Set Tm} {Z : Tm → Set (List Tm)}
    (h : ∀ x ∈ A, ∃ ht ∈ ts, x ∈ DenAt I ht.2 V σ0 ∧ (∀ c ∈ ht.2.2, g.builtin c = false → Callable c) ∧
      ∃ C2 r, restC g f C ht = some C2 ∧ next C2 = some r ∧ (Z x).encard ≤ r) :
    {l | ∃ x ∈ A, ∃ l' ∈ Z x, l = x :: l'}.encard ≤ best := by
  classical
  obtain ⟨-, rfl⟩ := sumM_spec e
  rw [List.map_map]
  choose! τ hτ using h
  refine encard_sum (B := fun ht => {l | ∃ x ∈ A, τ x = ht ∧ ∃ l' ∈ Z x, l = x :: l'}) (fun l hl => ?_) fun ht _ => ?_
  · obtain ⟨x, hx, l', hl', rfl⟩ := hl
    exact ⟨τ x, (hτ x hx).1, x, hx, rfl, l', hl', rfl⟩
  · by_cases hne : ∃ x ∈ A, τ x = ht
    · obtain ⟨x0, hx0, rfl⟩ := hne
      obtain ⟨-, -, hcal, C2, r, hr, hn, -⟩ := hτ x0 hx0
      have ec : ((·.getD 0) ∘ typeTime g f C V next) (τ x0) = stypeBound g (τ x0).2.1 V (τ x0).2.2 * r := by
        simp [typeTime_rest hr, hn]
      rw [ec]
      have h1 := C65_types hs (t := (τ x0).2) hcal V σ0
      refine le_trans ?_ (mul_le_mul_left h1 _)
      refine encard_cover (B := fun x => {l | τ x = τ x0 ∧ x ∈ A ∧ ∃ l' ∈ Z x, l = x :: l'}) (fun l hl => ?_) fun x _ => ?_
      · obtain ⟨x, hx, ht, l', hl', rfl⟩ := hl
        refine ⟨x, ?_, ht, hx, l', hl', rfl⟩
        have := (hτ x hx).2.1
        rwa [ht] at this
      · by_cases hx : τ x = τ x0 ∧ x ∈ A
        · obtain ⟨-, -, -, C2', r', hr', hn', hz⟩ := hτ x hx.2
          rw [hx.1, hr] at hr'
          cases hr'
          rw [hn] at hn'
          cases hn'
          have : {l | τ x = τ x0 ∧ x ∈ A ∧ ∃ l' ∈ Z x, l = x :: l'} ⊆ (x :: ·) '' Z x := by
            rintro l ⟨_, _, l', hl', rfl⟩
            exact ⟨l', hl', rfl⟩
          exact ((Set.encard_le_encard this).trans (Set.encard_image_le _ _)).trans hz
        · have : {l | τ x = τ x0 ∧ x ∈ A ∧ ∃ l' ∈ Z x, l = x :: l'} = ∅ := by
            ext l
            simp only [Set.mem_setOf_eq, Set.mem_empty_iff_false, iff_false]
            exact fun h => hx ⟨h.1, h.2.1⟩
          rw [this]; simp
    · have : {l | ∃ x ∈ A, τ x = ht ∧ ∃ l' ∈ Z x, l = x :: l'} = ∅ := by
        ext l
        simp only [Set.mem_setOf_eq, Set.mem_empty_iff_false, iff_false]
        rintro ⟨x, hx, h, _⟩
        exact hne ⟨x, hx, h⟩
      rw [this]; simp

theorem runs_congr : ∀ {P : Plan} {B : List Tm} {V : Finset Nat} {σ τ : Nat → Tm}, Agree V σ τ → P.Runs D B V σ → P.Runs D B V τ
  | .stop, _, _, _, _, _, h => h
  | .pick _ _, _, _, _, _, ha, h => ⟨h.1, fun υ hg hυ hx => h.2 υ hg (fun v hv => (hυ v hv).trans (ha v hv).symm) hx⟩

theorem visits_congr : ∀ {P : Plan} {V : Finset Nat} {σ τ : Nat → Tm}, Agree V σ τ → P.visits D V σ ⊆ P.visits D V τ
  | .stop, _, _, _, _ => subset_refl _
  | .pick _ _, _, _, _, ha => by
    rintro l (h | ⟨υ, hg, hυ, hx, l', hl', rfl⟩)
    · exact .inl h
    · exact .inr ⟨υ, hg, fun v hv => (hυ v hv).trans (ha v hv), hx, l', hl', rfl⟩

/-- the instances when some variables are given -/
def InstAt (D : Set Tm) (B : List Tm) (V : Finset Nat) (σ0 : Nat → Tm) : Set (List Tm) :=
  {l | ∃ σ, Propagate.Ground σ ∧ Agree V σ σ0 ∧ (∀ b ∈ B, b.sub σ ∈ D) ∧ l = B.map (·.sub σ)}

theorem inst_perm {B B' : List Tm} (h : B.Perm B') (V : Finset Nat) (σ0 : Nat → Tm) : (InstAt D B V σ0).encard ≤ (InstAt D B' V σ0).encard := by
  have := encard_cover (A := InstAt D B V σ0) (Y := InstAt D B' V σ0) (k := 1)
    (B := fun l' => {l | ∃ σ, l' = B'.map (·.sub σ) ∧ l = B.map (·.sub σ)}) (fun l hl => by
      obtain ⟨σ, h1, h2, h3, rfl⟩ := hl
      exact ⟨B'.map (·.sub σ), ⟨σ, h1, h2, fun b hb => h3 b (h.symm.subset hb), rfl⟩, σ, rfl, rfl⟩) fun l' _ => by
      rw [Set.encard_le_one_iff]
      rintro a b ⟨σ, h1, rfl⟩ ⟨τ, h2, rfl⟩
      rw [h1] at h2
      refine List.map_congr_left fun c hc => ?_
      exact List.map_inj_left.1 h2 c (h.subset hc)
  simpa using this

theorem suffix_plan (ty : Typed g I L D body) (hs : Sizes g I) {f : Nat} : ∀ (n : Nat) {B C : List Tm} {V : Finset Nat} {σ0 : Nat → Tm} {r : ℕ∞},
    (∀ b ∈ B, b ∈ body) → V ⊆ bvars body → (∀ σ, Propagate.Ground σ → Agree V σ σ0 → Solution I C σ) → (∀ c ∈ C, Avoids L c) → suffixtime g f n B C V = some r →
    (∃ P : Plan, P.Runs D B V σ0 ∧ (P.visits D V σ0).encard ≤ r) ∧ (InstAt D B V σ0).encard ≤ r
  | n, [], C, V, σ0, r, _, _, _, _, e => by
    rw [suffixtime] at e
    cases e
    refine ⟨⟨.stop, rfl, by simp [Plan.visits]⟩, ?_⟩
    have : InstAt D [] V σ0 ⊆ {[]} := by rintro l ⟨σ, _, _, _, rfl⟩; rfl
    exact (Set.encard_le_encard this).trans (by simp)
  | 0, _ :: _, _, _, _, _, _, _, _, _, e => by simp [suffixtime] at e
  | n + 1, b0 :: bs, C, V, σ0, r, hB, hV, hC, hCL, e => by
    classical
    rw [suffixtime] at e
    split at e
    · cases e
    · rename_i best em
      cases e
      obtain ⟨p, hp, e1⟩ := List.mem_map.1 ((minM_spec em).2 (by split <;> simp))
      have hpB : p ∈ b0 :: bs := by
        split at hp
        · rw [List.mem_singleton.1 hp]; simp
        · exact hp
      split at e1
      · cases e1
      · rename_i ts el
        have hall : ∀ ht ∈ ts, typeTime g f C V (fun C2 => suffixtime g f n ((b0 :: bs).erase p) C2 (V ∪ vars p)) ht ≠ none :=
          fun ht hht => (sumM_spec e1).1 _ (List.mem_map.2 ⟨ht, hht, rfl⟩)
        have hV2 : V ∪ vars p ⊆ bvars body := Finset.union_subset hV fun m hm => mem_varsL.2 ⟨p, hB p hpB, hm⟩
        have hB2 : ∀ b ∈ (b0 :: bs).erase p, b ∈ body := fun b hb => hB b (List.mem_of_mem_erase hb)
        have key : ∀ σ, Propagate.Ground σ → Agree V σ σ0 → p.sub σ ∈ D → ∃ ht ∈ ts, p.sub σ ∈ DenAt I ht.2 V σ0 ∧
            (∀ c ∈ ht.2.2, g.builtin c = false → Callable c) ∧ ∃ C2 r', restC g f C ht = some C2 ∧
              suffixtime g f n ((b0 :: bs).erase p) C2 (V ∪ vars p) = some r' ∧
              (∃ P : Plan, P.Runs D ((b0 :: bs).erase p) (V ∪ vars p) σ ∧ (P.visits D (V ∪ vars p) σ).encard ≤ r') ∧
              (InstAt D ((b0 :: bs).erase p) (V ∪ vars p) σ).encard ≤ r' := by
          intro σ hg ha hx
          obtain ⟨ht, hht, h1, h2, C2, h3, h4, h4'⟩ := answer ty (hB p hpB) el hV hC hCL hall hg ha hx
          have h5 := (sumM_spec e1).1 _ (List.mem_map.2 ⟨ht, hht, rfl⟩)
          rw [typeTime_rest h3] at h5
          cases h6 : suffixtime g f n ((b0 :: bs).erase p) C2 (V ∪ vars p) with
          | none => simp [h6] at h5
          | some r' =>
            have ih := suffix_plan ty hs n (σ0 := σ) hB2 hV2 h4 h4' h6
            exact ⟨ht, hht, h1, h2, C2, r', h3, h6, ih.1, ih.2⟩
        have same : ∀ {σ τ : Nat → Tm}, Agree V σ σ0 → Agree V τ σ0 → p.sub σ = p.sub τ → Agree (V ∪ vars p) σ τ := by
          intro σ τ h1 h2 h3 v hv
          rcases Finset.mem_union.1 hv with hv | hv
          · rw [h1 v hv, h2 v hv]
          · exact sub_eq_on_vars h3 v hv
        let A : Set Tm := {x | ∃ σ, Propagate.Ground σ ∧ Agree V σ σ0 ∧ p.sub σ = x ∧ x ∈ D}
        have hA : ∀ x ∈ A, ∃ σ, Propagate.Ground σ ∧ Agree V σ σ0 ∧ p.sub σ = x ∧ x ∈ D := fun x hx => hx
        choose! σx hσx using hA
        have key2 : ∀ x ∈ A, ∃ ht ∈ ts, x ∈ DenAt I ht.2 V σ0 ∧
            (∀ c ∈ ht.2.2, g.builtin c = false → Callable c) ∧ ∃ C2 r', restC g f C ht = some C2 ∧
              suffixtime g f n ((b0 :: bs).erase p) C2 (V ∪ vars p) = some r' ∧
              (∃ P : Plan, P.Runs D ((b0 :: bs).erase p) (V ∪ vars p) (σx x) ∧ (P.visits D (V ∪ vars p) (σx x)).encard ≤ r') ∧
              (InstAt D ((b0 :: bs).erase p) (V ∪ vars p) (σx x)).encard ≤ r' := fun x hx => by
          obtain ⟨h1, h2, h3, h4⟩ := hσx x hx
          have := key (σx x) h1 h2 (by rw [h3]; exact h4)
          rwa [h3] at this
        have hpl : ∀ x ∈ A, ∃ P : Plan, P.Runs D ((b0 :: bs).erase p) (V ∪ vars p) (σx x) ∧
            ∃ ht ∈ ts, x ∈ DenAt I ht.2 V σ0 ∧ (∀ c ∈ ht.2.2, g.builtin c = false → Callable c) ∧ ∃ C2 r', restC g f C ht = some C2 ∧
              suffixtime g f n ((b0 :: bs).erase p) C2 (V ∪ vars p) = some r' ∧ (P.visits D (V ∪ vars p) (σx x)).encard ≤ r' := fun x hx => by
          obtain ⟨ht, hht, h1, h2, C2, r', h3, h4, ⟨P, h5, h6⟩, _⟩ := key2 x hx
          exact ⟨P, h5, ht, hht, h1, h2, C2, r', h3, h4, h6⟩
        have : Nonempty Plan := ⟨.stop⟩
        choose! P hP1 hP2 using hpl
        refine ⟨⟨.pick p P, ⟨hpB, fun σ hg ha hx => ?_⟩, ?_⟩, ?_⟩
        · have hx' : p.sub σ ∈ A := ⟨σ, hg, ha, rfl, hx⟩
          obtain ⟨h1, h2, h3, h4⟩ := hσx _ hx'
          exact runs_congr (same h2 ha h3) (hP1 _ hx')
        · have hc := count_step hs e1 (A := A) (Z := fun x => (P x).visits D (V ∪ vars p) (σx x)) (σ0 := σ0) hP2
          refine (Set.encard_union_le _ _).trans (add_le_add (by simp) ((Set.encard_le_encard ?_).trans hc))
          rintro l ⟨σ, hg, ha, hx, l', hl', rfl⟩
          have hx' : p.sub σ ∈ A := ⟨σ, hg, ha, rfl, hx⟩
          obtain ⟨h1, h2, h3, h4⟩ := hσx _ hx'
          exact ⟨_, hx', l', visits_congr (same ha h2 h3.symm) hl', rfl⟩
        · have hc := count_step hs e1 (A := A) (Z := fun x => InstAt D ((b0 :: bs).erase p) (V ∪ vars p) (σx x)) (σ0 := σ0) fun x hx => by
            obtain ⟨ht, hht, h1, h2, C2, r', h3, h4, _, h5⟩ := key2 x hx
            exact ⟨ht, hht, h1, h2, C2, r', h3, h4, h5⟩
          refine (inst_perm (List.perm_cons_erase hpB) V σ0).trans (((Set.encard_le_encard ?_).trans hc).trans le_add_self)
          rintro l ⟨σ, hg, ha, hx, rfl⟩
          have hx' : p.sub σ ∈ A := ⟨σ, hg, ha, rfl, hx p (by simp)⟩
          obtain ⟨h1, h2, h3, h4⟩ := hσx _ hx'
          exact ⟨_, hx', _, ⟨σ, hg, same ha h2 h3.symm, fun b hb => hx b (by simp [hb]), rfl⟩, rfl⟩

/-! ### Property C66 -/

/-- **C66, running time.**  There is a plan that looks up every subgoal of the rule once, finds all instances, and
passes through at most as many states as the bound says. -/
theorem C66_plan (ty : Typed g I L D body) (hs : Sizes g I) {f : Nat} {r : ℕ∞} (e : ruleTime g f body = some r) (σ0 : Nat → Tm) :
    ∃ P : Plan, P.Runs D body.dedup ∅ σ0 ∧ (P.visits D ∅ σ0).encard ≤ r :=
  (suffix_plan ty hs _ (fun _ hb => List.mem_dedup.1 hb) (by simp) (fun _ hg _ => ⟨hg, by simp⟩) (by simp) e).1

/-- **C66, instances.**  The rule has at most as many instances as the bound says. -/
theorem C66_instances (ty : Typed g I L D body) (hs : Sizes g I) {f : Nat} {r : ℕ∞} (e : ruleTime g f body = some r) :
    (Instances D body).encard ≤ r := by
  have h := (suffix_plan (σ0 := fun n => .var n) ty hs _ (fun _ hb => List.mem_dedup.1 hb) (by simp) (fun _ hg _ => ⟨hg, by simp⟩) (by simp) e).2
  refine le_trans ?_ h
  have := encard_cover (A := Instances D body) (Y := InstAt D body.dedup ∅ fun n => .var n) (k := 1)
    (B := fun l' => {l | ∃ σ, l' = body.dedup.map (·.sub σ) ∧ l = body.map (·.sub σ)}) (fun l hl => by
      obtain ⟨σ, h1, h3, rfl⟩ := hl
      exact ⟨_, ⟨σ, h1, by simp [Agree], fun b hb => h3 b (List.mem_dedup.1 hb), rfl⟩, σ, rfl, rfl⟩) fun l' _ => by
      rw [Set.encard_le_one_iff]
      rintro a b ⟨σ, h1, rfl⟩ ⟨τ, h2, rfl⟩
      rw [h1] at h2
      refine List.map_congr_left fun c hc => ?_
      exact List.map_inj_left.1 h2 c (List.mem_dedup.2 hc)
  simpa using this

/-- **C66, programs.**  All rules together have at most as many instances as the bound of the program says. -/
theorem C66_program (hs : Sizes g I) {f : Nat} {bodies : List (List Tm)} (ty : ∀ B ∈ bodies, Typed g I L D B) {r : ℕ∞}
    (e : progTime g f bodies = some r) : {il : Nat × List Tm | ∃ B, bodies[il.1]? = some B ∧ il.2 ∈ Instances D B}.encard ≤ r := by
  classical
  obtain ⟨h1, rfl⟩ := sumM_spec e
  rw [List.map_map]
  have key := encard_sum (A := {il : Nat × List Tm | ∃ B, bodies[il.1]? = some B ∧ il.2 ∈ Instances D B}) (l := bodies.zipIdx)
    (B := fun Bi => {il | il.1 = Bi.2 ∧ il.2 ∈ Instances D Bi.1}) (c := fun Bi => (ruleTime g f Bi.1).getD 0) (fun il hil => by
      obtain ⟨B, h2, h3⟩ := hil
      exact ⟨(B, il.1), List.mk_mem_zipIdx_iff_getElem?.2 h2, rfl, h3⟩) fun Bi hBi => by
      have hB : Bi.1 ∈ bodies := List.mem_of_getElem? (List.mem_zipIdx_iff_getElem?.1 hBi)
      cases h2 : ruleTime g f Bi.1 with
      | none => exact (h1 _ (List.mem_map.2 ⟨_, hB, rfl⟩) h2).elim
      | some r' =>
        refine le_trans ?_ (C66_instances (ty _ hB) hs h2)
        have : {il : Nat × List Tm | il.1 = Bi.2 ∧ il.2 ∈ Instances D Bi.1} ⊆ (fun l => (Bi.2, l)) '' Instances D Bi.1 := by
          rintro ⟨i, l⟩ ⟨rfl, h⟩
          exact ⟨l, h, rfl⟩
        exact (Set.encard_le_encard this).trans (Set.encard_image_le _ _)
  refine key.trans (le_of_eq ?_)
  congr 1
  refine List.ext_getElem? fun i => ?_
  simp only [List.getElem?_map, List.getElem?_zipIdx]
  cases bodies[i]? <;> rfl

theorem callB_avoids {B : List Tm} (h : ∀ e x y, .app [e, x, y] ∈ B → Avoids L y) :
    ∀ {f : Nat} {t u : Tm}, Rewrites.callB B f t = some u → Avoids L t → Avoids L u := by
  intro f
  induction f with
  | zero => intro t u e; simp [Rewrites.callB] at e
  | succ f ih =>
    intro t u e ht
    rw [Rewrites.callB.eq_def] at e; simp only at e
    cases el : Rewrites.lookup B t with
    | some w =>
      rw [el] at e
      obtain ⟨g, hg⟩ := Rewrites.lookup_mem el
      exact ih e (h g t w hg)
    | none =>
      rw [el] at e
      cases t with
      | app as =>
        simp only [Option.map_eq_some_iff] at e
        obtain ⟨bs, h1, rfl⟩ := e
        obtain ⟨h2, -⟩ := allSome_spec h1
        intro n hn
        rw [vars_app, mem_varsL] at hn
        obtain ⟨b, hb, hn⟩ := hn
        obtain ⟨a, ha, e⟩ := h2 b hb
        exact ih e (fun m hm => ht m (by rw [vars_app, mem_varsL]; exact ⟨a, ha, hm⟩)) n hn
      | var n => cases e; exact ht
      | con c => cases e; exact ht

/-- **C66, `rewrites`.**  The simplification by constraint propagation meets the assumption of the bounds. -/
theorem C66_rewrites {E : Propagate.Env} (A : Propagate.Apart E L []) (M : Propagate.Model E I) {ui : Bool}
    (hc : ∀ R, g.simp R ≠ .oof → Rewrites.Call E false ui true R (g.simp R))
    (hodd : ∀ R : Ty, g.simp R = .none → ∀ st, Propagate.Run E R.2 st → ∀ d ∈ st.chart, ¬ Propagate.Odd d) {R : Ty} {σ : Nat → Tm}
    (hR : ∀ c ∈ R.2, Avoids L c) (hσ : Solution I R.2 σ) :
    g.simp R ≠ .none ∧ ∀ hd C, g.simp R = .ty hd C → Solution I C σ ∧ ∀ c ∈ C, Avoids L c := by
  have AR : Propagate.Apart E L R.2 := ⟨A.body, A.head, hR, A.blt, A.hooks⟩
  refine ⟨fun e => ?_, fun hd C e => ?_⟩
  · have h := hc R (by rw [e]; simp)
    rw [e] at h
    rcases Rewrites.C53_simplify_none AR M h with h | ⟨st, h1, d, hd, h2⟩ | ⟨h, _⟩
    · have : R.1.sub σ ∈ Den I R := ⟨σ, hσ, rfl⟩
      rw [h] at this
      exact this
    · exact hodd R e st h1 d hd h2
    · cases h
  · have h := hc R (by rw [e]; simp)
    rw [e] at h
    refine ⟨(Rewrites.call_sup AR M h hσ).1, ?_⟩
    generalize ho : Res.ty hd C = o at h
    cases h with
    | fail _ => cases ho
    | @done f st hr _ =>
      obtain ⟨-, h2, -⟩ := Rewrites.finish_ty ho.symm
      have hi := (Propagate.run_inv (I := I) AR (Rewrites.returns_run hr)).1
      intro y hy
      obtain ⟨x, hx, hxy⟩ := h2 y hy
      refine callB_avoids (fun e x y hb n hn => ?_) hxy (hi.avoid x hx)
      refine hi.avoid _ (hi.bind hb) n ?_
      rw [vars_app, mem_varsL]
      exact ⟨y, by simp, hn⟩

/-! ### The best plan -/

/-- the cost of running the subgoals in the order that `pick` says, which may depend on the types found so far -/
noncomputable def orderTime (g : Cfg) (f : Nat) (pick : List Tm → List Tm → Finset Nat → Tm) : Nat → List Tm → List Tm → Finset Nat → Option ℕ∞
  | 0, _, _, _ => some 1
  | n + 1, B, C, V => match lookup g f (pick B C V) with
    | none => none
    | some ts => (sumM (ts.map (typeTime g f C V fun C2 =>
        orderTime g f pick n (B.erase (pick B C V)) C2 (V ∪ vars (pick B C V))))).map (1 + ·)

theorem typeTime_mono {f : Nat} {C : List Tm} {V : Finset Nat} {F G : List Tm → Option ℕ∞} (h : ∀ C2 a b, F C2 = some a → G C2 = some b → a ≤ b)
    {ht : Heap × Ty} {a b : ℕ∞} (ea : typeTime g f C V F ht = some a) (eb : typeTime g f C V G ht = some b) : a ≤ b := by
  unfold typeTime at ea eb
  split at ea
  · cases ea
  · rename_i C' e1
    rw [e1] at eb
    simp only at eb
    split at ea
    · rename_i e2
      rw [e2] at eb
      cases ea; cases eb; exact le_refl _
    · cases ea
    · cases ea
    · rename_i hd C2 e2
      rw [e2] at eb
      simp only at eb
      split at ea
      · cases ea
      · rename_i r e3
        cases ea
        split at eb
        · cases eb
        · rename_i r' e4
          cases eb
          exact mul_le_mul_right (h _ _ _ e3 e4) _

theorem sumM_mono {α : Type} {F G : α → Option ℕ∞} : ∀ {l : List α} {a b : ℕ∞}, (∀ x ∈ l, ∀ a b, F x = some a → G x = some b → a ≤ b) →
    sumM (l.map F) = some a → sumM (l.map G) = some b → a ≤ b
  | [], a, b, _, ea, eb => by
    simp only [List.map_nil, sumM, Option.some.injEq] at ea eb
    rw [← ea, ← eb]
  | x :: l, a, b, h, ea, eb => by
    simp only [List.map_cons, sumM] at ea eb
    split at ea
    · rename_i a1 a2 e1 e2
      cases ea
      split at eb
      · rename_i b1 b2 e3 e4
        cases eb
        exact add_le_add (h x (by simp) _ _ e1 e3) (sumM_mono (fun y hy => h y (by simp [hy])) e2 e4)
      · cases eb
    · cases ea

theorem suffix_le (hf : g.fast = false) {f : Nat} {pick : List Tm → List Tm → Finset Nat → Tm} (hp : ∀ B C V, B ≠ [] → pick B C V ∈ B) :
    ∀ (n : Nat) {B C : List Tm} {V : Finset Nat} {r r' : ℕ∞}, B.length = n → suffixtime g f n B C V = some r → orderTime g f pick n B C V = some r' → r ≤ r'
  | 0, B, C, V, r, r', hB, e, e' => by
    rw [List.length_eq_zero_iff.1 hB, suffixtime] at e
    rw [orderTime] at e'
    cases e; cases e'; exact le_refl _
  | n + 1, B, C, V, r, r', hB, e, e' => by
    cases B with
    | nil => simp at hB
    | cons b bs =>
      rw [suffixtime, hf] at e
      simp only [Bool.false_eq_true, if_false] at e
      have hm := hp (b :: bs) C V (by simp)
      split at e
      · cases e
      · rename_i best em
        cases e
        obtain ⟨a, ea, hle⟩ := (minM_spec em).1 _ (List.mem_map.2 ⟨_, hm, rfl⟩)
        rw [orderTime] at e'
        split at e'
        · cases e'
        · rename_i ts el
          rw [el] at ea
          simp only at ea
          obtain ⟨a', ea', rfl⟩ := Option.map_eq_some_iff.1 e'
          refine add_le_add (le_refl _) (hle.trans (sumM_mono (fun x _ a b h1 h2 => typeTime_mono (fun C2 a b h3 h4 => ?_) h1 h2) ea ea'))
          exact suffix_le hf hp n (by rw [List.length_erase_of_mem hm, hB]; rfl) h3 h4

theorem suffix_ex (hf : g.fast = false) {f : Nat} : ∃ pick : List Tm → List Tm → Finset Nat → Tm, (∀ B C V, B ≠ [] → pick B C V ∈ B) ∧
    ∀ (n : Nat) (B C : List Tm) (V : Finset Nat) (r : ℕ∞), B.length = n → suffixtime g f n B C V = some r → orderTime g f pick n B C V = some r := by
  classical
  have hpk : ∀ (B C : List Tm) (V : Finset Nat), ∃ p, B ≠ [] → p ∈ B ∧ ∀ r, suffixtime g f B.length B C V = some r → ∃ ts, lookup g f p = some ts ∧
      (sumM (ts.map (typeTime g f C V fun C2 => suffixtime g f (B.length - 1) (B.erase p) C2 (V ∪ vars p)))).map (1 + ·) = some r := by
    intro B C V
    cases B with
    | nil => exact ⟨.var 0, by simp⟩
    | cons b bs =>
      by_cases h : ∃ r, suffixtime g f (b :: bs).length (b :: bs) C V = some r
      · obtain ⟨r, e⟩ := h
        have e0 := e
        rw [List.length_cons, suffixtime, hf] at e
        simp only [Bool.false_eq_true, if_false] at e
        split at e
        · cases e
        · rename_i best em
          cases e
          obtain ⟨p, hp, e1⟩ := List.mem_map.1 ((minM_spec em).2 (by simp))
          refine ⟨p, fun _ => ⟨hp, fun r' e' => ?_⟩⟩
          rw [e0] at e'
          cases e'
          split at e1
          · cases e1
          · rename_i ts el
            refine ⟨ts, el, ?_⟩
            rw [List.length_cons, Nat.add_sub_cancel, e1]
            rfl
      · exact ⟨b, fun _ => ⟨by simp, fun r e => (h ⟨r, e⟩).elim⟩⟩
  choose pick hpick using hpk
  refine ⟨pick, fun B C V h => (hpick B C V h).1, fun n => ?_⟩
  induction n with
  | zero =>
    intro B C V r hB e
    rw [List.length_eq_zero_iff.1 hB, suffixtime] at e
    rw [orderTime]
    exact e
  | succ n ih =>
    intro B C V r hB e
    have hne : B ≠ [] := by rintro rfl; simp at hB
    obtain ⟨hm, h2⟩ := hpick B C V hne
    obtain ⟨ts, h3, h4⟩ := h2 r (by rw [hB]; exact e)
    rw [orderTime, h3]
    simp only
    rw [← h4]
    obtain ⟨a, ha, -⟩ := Option.map_eq_some_iff.1 h4
    congr 2
    refine List.map_congr_left fun ht hht => ?_
    have h5 := (sumM_spec ha).1 _ (List.mem_map.2 ⟨ht, hht, rfl⟩)
    obtain ⟨C', e5, hr⟩ := typeTime_ne h5
    unfold typeTime at h5 ⊢
    simp only [e5] at h5 ⊢
    rcases hr with hr | ⟨hd, C2, hr⟩
    · simp only [hr]
    · simp only [hr] at h5 ⊢
      rw [hB, Nat.add_sub_cancel] at h5 ⊢
      cases e6 : suffixtime g f n (B.erase (pick B C V)) C2.dedup (V ∪ vars (pick B C V)) with
      | none => simp [e6] at h5
      | some r' => rw [ih _ _ _ _ (by rw [List.length_erase_of_mem hm, hB]; rfl) e6]

/-- **C66, best plan.**  The bound is the least cost of an order of the subgoals, where the next subgoal may
depend on the types found so far. -/
theorem C66_best (hf : g.fast = false) {f : Nat} {r : ℕ∞} (e : ruleTime g f body = some r) :
    (∀ pick, (∀ B C V, B ≠ [] → pick B C V ∈ B) → ∀ r', orderTime g f pick body.dedup.length body.dedup [] ∅ = some r' → r ≤ r') ∧
      ∃ pick, (∀ B C V, B ≠ [] → pick B C V ∈ B) ∧ orderTime g f pick body.dedup.length body.dedup [] ∅ = some r := by
  refine ⟨fun pick hp r' e' => suffix_le hf hp _ rfl e e', ?_⟩
  obtain ⟨pick, h1, h2⟩ := suffix_ex hf (f := f)
  exact ⟨pick, h1, h2 _ _ _ _ _ rfl e⟩

theorem stb_fast (hd : Tm) : ∀ (n : Nat) (V : Finset Nat) (cs : List Tm), stb { g with fast := true } hd n V cs = stb g hd n V cs
  | _, _, [] => by rw [stb, stb]
  | 0, _, _ :: _ => by rw [stb, stb]
  | n + 1, V, c :: cs => by
    have hl : ∀ c V, lookupBounds { g with fast := true } c V = lookupBounds g c V := fun _ _ => rfl
    rw [stb, stb]
    · simp only [stb_fast hd n, hl]
    all_goals exact fun h => by cases h

theorem fast_order {f : Nat} : ∀ (n : Nat) (B C : List Tm) (V : Finset Nat), B.length = n →
    suffixtime { g with fast := true } f n B C V = orderTime g f (fun B _ _ => B.headD (.var 0)) n B C V
  | 0, B, C, V, hB => by rw [List.length_eq_zero_iff.1 hB, suffixtime, orderTime]
  | n + 1, B, C, V, hB => by
    cases B with
    | nil => simp at hB
    | cons b bs =>
      rw [suffixtime, orderTime]
      simp only [if_true, List.map_cons, List.map_nil, List.headD_cons, minM]
      have hl : lookup { g with fast := true } f b = lookup g f b := rfl
      rw [hl]
      cases lookup g f b with
      | none => rfl
      | some ts =>
        simp only
        have : ∀ ht, typeTime { g with fast := true } f C V (fun C2 => suffixtime { g with fast := true } f n ((b :: bs).erase b) C2 (V ∪ vars b)) ht =
            typeTime g f C V (fun C2 => orderTime g f (fun B _ _ => B.headD (.var 0)) n ((b :: bs).erase b) C2 (V ∪ vars b)) ht := fun ht => by
          have : (fun C2 => suffixtime { g with fast := true } f n ((b :: bs).erase b) C2 (V ∪ vars b)) =
              fun C2 => orderTime g f (fun B _ _ => B.headD (.var 0)) n ((b :: bs).erase b) C2 (V ∪ vars b) :=
            funext fun C2 => fast_order n _ _ _ (by simpa using hB)
          rw [this]
          unfold typeTime stypeBound
          simp only [stb_fast]
        rw [List.map_congr_left fun ht _ => this ht]
        cases sumM (ts.map (typeTime g f C V fun C2 => orderTime g f (fun B _ _ => B.headD (.var 0)) n ((b :: bs).erase b) C2 (V ∪ vars b))) with
        | none => rfl
        | some a => simp

/-- **C66, fast mode.**  The bound of fast mode is not smaller. -/
theorem C66_fast (hf : g.fast = false) {f : Nat} {r r' : ℕ∞} (e : ruleTime g f body = some r) (e' : ruleTime { g with fast := true } f body = some r') :
    r ≤ r' := by
  unfold ruleTime at e'
  rw [fast_order _ _ _ _ rfl] at e'
  refine (C66_best hf e).1 _ (fun B C V h => ?_) r' e'
  cases B with
  | nil => exact (h rfl).elim
  | cons b bs => simp

/-! ### Subgoals without a type -/

/-- **C66, subgoals without a type.**  A rule one of whose subgoals matches no type has the bound 1. -/
theorem C66_untyped (hf : g.fast = false) {f : Nat} {r : ℕ∞} (e : ruleTime g f body = some r) {p : Tm} (hp : p ∈ body) (hl : lookup g f p = some []) : r = 1 := by
  unfold ruleTime at e
  have hp' : p ∈ body.dedup := List.mem_dedup.2 hp
  revert e hp'
  generalize body.dedup = B
  intro e hp'
  cases B with
  | nil => simp at hp'
  | cons b bs =>
    rw [List.length_cons, suffixtime, hf] at e
    simp only [Bool.false_eq_true, if_false] at e
    split at e
    · cases e
    · rename_i best em
      cases e
      obtain ⟨a, ea, hle⟩ := (minM_spec em).1 _ (List.mem_map.2 ⟨p, hp', rfl⟩)
      rw [hl] at ea
      simp only [List.map_nil, sumM, Option.some.injEq] at ea
      rw [← ea] at hle
      rw [nonpos_iff_eq_zero.1 hle, add_zero]

theorem matches_con {f : Nat} {c : Const} : ∀ {ch : List Ty} {ts : List (Heap × Ty)}, (∀ s ∈ ch, FlatHead s.1) → matches_ f (.con c) ch = some ts → ts = []
  | [], ts, _, e => by cases e; rfl
  | s :: ch, ts, h, e => by
    rw [matches_] at e
    split at e
    · cases e
    · exact matches_con (fun s hs => h s (by simp [hs])) e
    · rename_i h' e1
      obtain ⟨δ, -, h2, -⟩ := Subst.C05_mgu e1
      obtain ⟨k, as, e2, -⟩ := h s (by simp)
      rw [e2] at h2
      simp at h2

/-- **C66, constants.**  A rule with a constant among its subgoals has the bound 1, whatever its other subgoals are. -/
theorem C66_constant (hf : g.fast = false) {f : Nat} {r : ℕ∞} (e : ruleTime g f body = some r) {c : Const} (hc : .con c ∈ body)
    (hb : g.builtin (.con c) = false) (hfl : ∀ s ∈ g.chart, FlatHead s.1) : r = 1 := by
  have hl : lookup g f (.con c) = none ∨ lookup g f (.con c) = some [] := by
    unfold lookup
    split
    · exact .inl rfl
    · rename_i ts e1
      rw [matches_con hfl e1, hb]
      exact .inr rfl
  rcases hl with hl | hl
  · exfalso
    unfold ruleTime at e
    have hp' : Tm.con c ∈ body.dedup := List.mem_dedup.2 hc
    revert e hp'
    generalize body.dedup = B
    intro e hp'
    cases B with
    | nil => simp at hp'
    | cons b bs =>
      rw [List.length_cons, suffixtime, hf] at e
      simp only [Bool.false_eq_true, if_false] at e
      split at e
      · cases e
      · rename_i best em
        obtain ⟨a, ea, -⟩ := (minM_spec em).1 _ (List.mem_map.2 ⟨_, hp', rfl⟩)
        rw [hl] at ea
        cases ea
  · exact C66_untyped hf e hc hl

end

/-! ### Examples -/

section Examples
open TypeAn (mkT)

/-- The program `a(I,K) += b(I,J) * c(J,K)` with the types `b(I,J) :- b1(I), b2(J)` and `c(J,K) :- c1(J), c2(K)`. -/
def joinG (size : Option Const → ℕ∞) : Cfg where
  chart := [(mkT "b" [.var 10, .var 11], [mkT "b1" [.var 10], mkT "b2" [.var 11]]),
    (mkT "c" [.var 12, .var 13], [mkT "c1" [.var 12], mkT "c2" [.var 13]])]
  builtin := isBuiltin [(.str "<", 2)]
  simp R := .ty R.1 R.2.dedup
  size := size
  fast := false

def joinB : List Tm := [mkT "b" [.var 0, .var 1], mkT "c" [.var 1, .var 2]]

theorem joinLookup (size : Option Const → ℕ∞) : ∃ h1 h2, lookup (joinG size) 20 (mkT "b" [.var 0, .var 1]) =
    some [(h1, mkT "b" [.var 0, .var 1], [mkT "b1" [.var 0], mkT "b2" [.var 1]])] ∧ lookup (joinG size) 20 (mkT "c" [.var 1, .var 2]) =
    some [(h2, mkT "c" [.var 1, .var 2], [mkT "c1" [.var 1], mkT "c2" [.var 2]])] ∧
    allSome ([mkT "c1" [.var 1], mkT "c2" [.var 2]].map (Subst.callF h1 20)) = some [mkT "c1" [.var 1], mkT "c2" [.var 2]] ∧
    allSome ([mkT "b1" [.var 0], mkT "b2" [.var 1]].map (Subst.callF h2 20)) = some [mkT "b1" [.var 0], mkT "b2" [.var 1]] := ⟨_, _, rfl, rfl, rfl, rfl⟩

theorem pairBound {g : Cfg} (hb : ∀ s a, g.builtin (mkT s [a]) = false) {hd : Tm} {V : Finset Nat} {s s' : String} {a b : Nat} (hne : s ≠ s') (hab : a ≠ b)
    (hh : vars hd = {a, b}) :
    stypeBound g hd V [mkT s [.var a], mkT s' [.var b]] = (if a ∈ V then 1 else g.size (some (.str s))) * (if b ∈ V then 1 else g.size (some (.str s'))) := by
  have hv : ∀ s (n : Nat), vars (mkT s [.var n]) = {n} := fun s n => by simp [mkT]
  have hs : ∀ s (n : Nat), hfn (mkT s [.var n]) = some (.str s) := fun s n => rfl
  have hd2 : [mkT s [.var a], mkT s' [.var b]].dedup = [mkT s [.var a], mkT s' [.var b]] := by
    simp [mkT, hne]
  have he : [mkT s [.var a], mkT s' [.var b]].erase (mkT s' [.var b]) = [mkT s [.var a]] := by
    simp [mkT, hne]
  unfold stypeBound
  rw [hd2]
  have h1 : ∀ W, stb g hd 1 W [mkT s' [.var b]] = (if b ∈ W then 1 else g.size (some (.str s'))) * (if vars hd ⊆ insert b W then 1 else ⊤) := by
    intro W
    by_cases h : b ∈ W <;> simp [stb, lookupBounds, hv, hs, hb, h, Finset.union_comm]
  have h2 : ∀ W, stb g hd 1 W [mkT s [.var a]] = (if a ∈ W then 1 else g.size (some (.str s))) * (if vars hd ⊆ insert a W then 1 else ⊤) := by
    intro W
    by_cases h : a ∈ W <;> simp [stb, lookupBounds, hv, hs, hb, h, Finset.union_comm]
  have h3 : stb g hd 2 V [mkT s [.var a], mkT s' [.var b]] = min ((if a ∈ V then 1 else g.size (some (.str s))) * (if b ∈ V then 1 else g.size (some (.str s'))))
      ((if b ∈ V then 1 else g.size (some (.str s'))) * (if a ∈ V then 1 else g.size (some (.str s)))) := by
    rw [stb]
    · simp only [List.foldl_cons, List.foldl_nil, List.erase_cons_head, he, h1, h2]
      have hba : b ≠ a := hab.symm
      by_cases h : a ∈ V <;> by_cases hbV : b ∈ V <;> simp [lookupBounds, hv, hs, hb, h, hbV, hh, hab, hba, Finset.subset_iff]
    · exact fun h => by cases h
  rw [show [mkT s [.var a], mkT s' [.var b]].length = 2 from rfl, h3, mul_comm, min_self]

/-- **C66, a join.**  The bound of `a(I,K) += b(I,J) * c(J,K)`, whatever the sizes are. -/
theorem C66_join (size : Option Const → ℕ∞) : ruleTime (joinG size) 20 joinB = some (1 + min
    (size (some (.str "b1")) * size (some (.str "b2")) * (1 + size (some (.str "c2"))))
    (size (some (.str "c1")) * size (some (.str "c2")) * (1 + size (some (.str "b1"))))) := by
  obtain ⟨h1, h2, e1, e2, e3, e4⟩ := joinLookup size
  simp only [List.map_cons, List.map_nil] at e3 e4
  have hd : joinB.dedup = joinB := by decide
  have hbl : ∀ s a, (joinG size).builtin (mkT s [a]) = false := fun s a => by simp [joinG, isBuiltin, mkT]
  unfold ruleTime
  rw [hd]
  have hf : (joinG size).fast = false := rfl
  have hsz : (joinG size).size = size := rfl
  have hsm : ∀ R, (joinG size).simp R = .ty R.1 R.2.dedup := fun _ => rfl
  have hvb : vars (mkT "b" [.var 0, .var 1]) = {0, 1} := by decide
  have hvc : vars (mkT "c" [.var 1, .var 2]) = {1, 2} := by decide
  have q1 := pairBound (g := joinG size) hbl (hd := mkT "b" [.var 0, .var 1]) (V := ∅) (s := "b1") (s' := "b2") (a := 0) (b := 1) (by decide) (by decide) hvb
  have q2 := pairBound (g := joinG size) hbl (hd := mkT "c" [.var 1, .var 2]) (V := ∅) (s := "c1") (s' := "c2") (a := 1) (b := 2) (by decide) (by decide) hvc
  have q3 := pairBound (g := joinG size) hbl (hd := mkT "c" [.var 1, .var 2]) (V := {0, 1}) (s := "c1") (s' := "c2") (a := 1) (b := 2) (by decide) (by decide) hvc
  have q4 := pairBound (g := joinG size) hbl (hd := mkT "b" [.var 0, .var 1]) (V := {1, 2}) (s := "b1") (s' := "b2") (a := 0) (b := 1) (by decide) (by decide) hvb
  simp only [hsz, Finset.notMem_empty, if_false, Finset.mem_insert, Finset.mem_singleton] at q1 q2 q3 q4
  norm_num at q3 q4
  have er : joinB.erase (mkT "b" [.var 0, .var 1]) = [mkT "c" [.var 1, .var 2]] ∧ joinB.erase (mkT "c" [.var 1, .var 2]) = [mkT "b" [.var 0, .var 1]] := by
    decide
  have d1 : ([mkT "b1" [.var 0], mkT "b2" [.var 1]] : List Tm).dedup = [mkT "b1" [.var 0], mkT "b2" [.var 1]] := by decide
  have d2 : ([mkT "c1" [.var 1], mkT "c2" [.var 2]] : List Tm).dedup = [mkT "c1" [.var 1], mkT "c2" [.var 2]] := by decide
  have s1 : suffixtime (joinG size) 20 1 [mkT "c" [.var 1, .var 2]] [mkT "b1" [.var 0], mkT "b2" [.var 1]] {0, 1} = some (1 + size (some (.str "c2"))) := by
    simp [suffixtime, hf, e2, sumM, minM, typeTime, e4, hsm, q3]
  have s2 : suffixtime (joinG size) 20 1 [mkT "b" [.var 0, .var 1]] [mkT "c1" [.var 1], mkT "c2" [.var 2]] {1, 2} = some (1 + size (some (.str "b1"))) := by
    simp [suffixtime, hf, e1, sumM, minM, typeTime, e3, hsm, q4]
  rw [show joinB.length = 1 + 1 from rfl]
  conv_lhs => rw [joinB, suffixtime]
  simp only [hf, Bool.false_eq_true, if_false, List.map_cons, List.map_nil, e1, e2, sumM, minM, typeTime, allSome, List.append_nil, hsm, d1, d2,
    Finset.empty_union, hvb, hvc, q1, q2]
  rw [show [mkT "b" [.var 0, .var 1], mkT "c" [.var 1, .var 2]] = joinB from rfl, er.1, er.2, s1, s2]
  simp

/-! The join with three times two items: `b(0..2, 0)` and `c(0, 0..1)`. -/

private def i (z : Int) : Tm := .con (.int z)

private def jI : Set Tm := {mkT "b1" [i 0], mkT "b1" [i 1], mkT "b1" [i 2], mkT "b2" [i 0], mkT "c1" [i 0], mkT "c2" [i 0], mkT "c2" [i 1]}

private def jD : Set Tm := {x | ∃ a b, (a = i 0 ∨ a = i 1 ∨ a = i 2) ∧ b = i 0 ∧ x = mkT "b" [a, b]} ∪
  {x | ∃ a b, a = i 0 ∧ (b = i 0 ∨ b = i 1) ∧ x = mkT "c" [a, b]}

private def jS : Option Const → ℕ∞ := fun o =>
  if o = some (.str "b1") then 3 else if o = some (.str "b2") then 1 else if o = some (.str "c1") then 1 else if o = some (.str "c2") then 2 else 0

private theorem jTyped : Typed (joinG jS) jI ∅ jD joinB where
  flat := by
    intro s hs
    simp only [joinG, List.mem_cons, List.not_mem_nil, or_false] at hs
    rcases hs with rfl | rfl
    · exact ⟨_, _, rfl, by simp⟩
    · exact ⟨_, _, rfl, by simp⟩
  safe := by
    intro s hs
    simp only [joinG, List.mem_cons, List.not_mem_nil, or_false] at hs
    rcases hs with rfl | rfl <;> (intro c hc; simp only [List.mem_cons, List.not_mem_nil, or_false] at hc; rcases hc with rfl | rfl <;>
      exact ⟨⟨_, _, rfl⟩, by decide⟩)
  apart := by
    simp only [joinG, joinB]
    decide
  terms := by
    intro b hb m e
    subst e
    simp [joinB, mkT] at hb
  cover := by
    intro b hb σ hg h
    left
    simp only [joinB, List.mem_cons, List.not_mem_nil, or_false] at hb
    rcases hb with rfl | rfl
    · rcases h with ⟨a, b, ha, rfl, h⟩ | ⟨a, b, _, _, h⟩
      · refine ⟨(mkT "b" [.var 10, .var 11], [mkT "b1" [.var 10], mkT "b2" [.var 11]]), by simp [joinG], fun n => if n = 10 then a else i 0, ⟨fun n => ?_, ?_⟩, ?_⟩
        · show vars (if _ then _ else _) = _
          split
          · rcases ha with rfl | rfl | rfl <;> rfl
          · rfl
        · intro c hc
          simp only [List.mem_cons, List.not_mem_nil, or_false] at hc
          rcases hc with rfl | rfl
          · rcases ha with rfl | rfl | rfl <;> simp [jI, mkT]
          · simp [jI, mkT]
        · rw [h]; simp [mkT]
      · simp [mkT] at h
    · rcases h with ⟨a, b, _, _, h⟩ | ⟨a, b, rfl, hb, h⟩
      · simp [mkT] at h
      · refine ⟨(mkT "c" [.var 12, .var 13], [mkT "c1" [.var 12], mkT "c2" [.var 13]]), by simp [joinG], fun n => if n = 13 then b else i 0, ⟨fun n => ?_, ?_⟩, ?_⟩
        · show vars (if _ then _ else _) = _
          split
          · rcases hb with rfl | rfl <;> rfl
          · rfl
        · intro c hc
          simp only [List.mem_cons, List.not_mem_nil, or_false] at hc
          rcases hc with rfl | rfl
          · simp [jI, mkT]
          · rcases hb with rfl | rfl <;> simp [jI, mkT]
        · rw [h]; simp [mkT]
  own := by simp [Avoids]
  simp := by
    intro R σ _ h
    simp only [joinG]
    refine ⟨by simp, fun hd C e => ?_⟩
    cases e
    exact ⟨⟨h.1, fun c hc => h.2 c (List.mem_dedup.1 hc)⟩, by simp [Avoids]⟩

private theorem jSizes : Sizes (joinG jS) jI := by
  rintro c ⟨k, as, rfl⟩ -
  show Set.encard {y | y ∈ jI ∧ hfn y = some k} ≤ jS (some k)
  have le : ∀ l : List Tm, {y | y ∈ jI ∧ hfn y = some k} ⊆ {y | y ∈ l} → Set.encard {y | y ∈ jI ∧ hfn y = some k} ≤ l.length := fun l h => by
    classical
    have : {y | y ∈ l} = (l.toFinset : Set Tm) := by ext; simp
    rw [this] at h
    refine (Set.encard_le_encard h).trans ?_
    rw [Set.encard_coe_eq_coe_finsetCard]
    exact_mod_cast List.toFinset_card_le l
  by_cases h1 : k = .str "b1"
  · subst h1
    refine (le [mkT "b1" [i 0], mkT "b1" [i 1], mkT "b1" [i 2]] ?_).trans (by simp [jS])
    rintro y ⟨h, e⟩
    simp only [jI, Set.mem_insert_iff, Set.mem_singleton_iff] at h
    rcases h with rfl | rfl | rfl | rfl | rfl | rfl | rfl <;> simp_all [mkT, hfn]
  by_cases h2 : k = .str "b2"
  · subst h2
    refine (le [mkT "b2" [i 0]] ?_).trans (by simp [jS])
    rintro y ⟨h, e⟩
    simp only [jI, Set.mem_insert_iff, Set.mem_singleton_iff] at h
    rcases h with rfl | rfl | rfl | rfl | rfl | rfl | rfl <;> simp_all [mkT, hfn]
  by_cases h3 : k = .str "c1"
  · subst h3
    refine (le [mkT "c1" [i 0]] ?_).trans (by simp [jS])
    rintro y ⟨h, e⟩
    simp only [jI, Set.mem_insert_iff, Set.mem_singleton_iff] at h
    rcases h with rfl | rfl | rfl | rfl | rfl | rfl | rfl <;> simp_all [mkT, hfn]
  by_cases h4 : k = .str "c2"
  · subst h4
    refine (le [mkT "c2" [i 0], mkT "c2" [i 1]] ?_).trans (by simp [jS])
    rintro y ⟨h, e⟩
    simp only [jI, Set.mem_insert_iff, Set.mem_singleton_iff] at h
    rcases h with rfl | rfl | rfl | rfl | rfl | rfl | rfl <;> simp_all [mkT, hfn]
  · refine (le [] ?_).trans (by simp)
    rintro y ⟨h, e⟩
    simp only [jI, Set.mem_insert_iff, Set.mem_singleton_iff] at h
    rcases h with rfl | rfl | rfl | rfl | rfl | rfl | rfl <;> (simp only [mkT, hfn, Option.some.injEq] at e; simp_all)

private theorem jTime : ruleTime (joinG jS) 20 joinB = some 9 := by
  rw [C66_join]
  simp [jS]
  norm_num

example (σ0 : Nat → Tm) : ∃ P : Plan, P.Runs jD joinB ∅ σ0 ∧ (P.visits jD ∅ σ0).encard ≤ 9 := by
  have := C66_plan jTyped jSizes jTime σ0
  rwa [show joinB.dedup = joinB by decide] at this

example : (Instances jD joinB).encard ≤ 9 := C66_instances jTyped jSizes jTime

example : {il : Nat × List Tm | ∃ B, [joinB, joinB][il.1]? = some B ∧ il.2 ∈ Instances jD B}.encard ≤ 18 := by
  refine C66_program (r := 18) jSizes (L := ∅) (g := joinG jS) (f := 20) (fun B hB => ?_) ?_
  · have : B = joinB := by simpa using hB
    exact this ▸ jTyped
  · simp [progTime, jTime, sumM]
    norm_num

example (pick : List Tm → List Tm → Finset Nat → Tm) (h : ∀ B C V, B ≠ [] → pick B C V ∈ B) (r' : ℕ∞)
    (e : orderTime (joinG jS) 20 pick joinB.dedup.length joinB.dedup [] ∅ = some r') : 9 ≤ r' := (C66_best rfl jTime).1 pick h r' e

example (r' : ℕ∞) (e : ruleTime { joinG jS with fast := true } 20 joinB = some r') : 9 ≤ r' := C66_fast rfl jTime e

/-! C65: sizes. -/

example (σ0 : Nat → Tm) : (DenAt jI (mkT "c" [.var 12, .var 13], [mkT "c1" [.var 12], mkT "c2" [.var 13]]) {12} σ0).encard ≤ 2 := by
  refine (C65_types jSizes ?_ _ _).trans (le_of_eq ?_)
  · intro c hc _
    simp only [List.mem_cons, List.not_mem_nil, or_false] at hc
    rcases hc with rfl | rfl <;> exact ⟨_, _, rfl⟩
  · rw [pairBound (fun s a => by simp [joinG, isBuiltin, mkT]) (by decide) (by decide) (by decide)]
    simp [joinG, jS]

example : stypeBound (joinG jS) (mkT "b" [.var 0, .var 1]) {0} [mkT "b1" [.var 0], mkT "b2" [.var 1]] ≤ ordCost (joinG jS) (mkT "b" [.var 0, .var 1]) {0} [mkT "b2" [.var 1], mkT "b1" [.var 0]] :=
  (C65_best _ _ _).1 _ (by
    rw [show ([mkT "b1" [.var 0], mkT "b2" [.var 1]] : List Tm).dedup = [mkT "b1" [.var 0], mkT "b2" [.var 1]] by decide]
    exact List.Perm.swap _ _ _)

example : (Cover jI (joinG jS).chart).encard ≤ 5 := by
  refine (C65_chart jSizes ?_).trans (le_of_eq ?_)
  · intro t ht c hc
    exact (jTyped.safe t ht c hc).1
  · have hbl : ∀ s a, (joinG jS).builtin (mkT s [a]) = false := fun s a => by simp [joinG, isBuiltin, mkT]
    have h1 := pairBound (g := joinG jS) hbl (hd := mkT "b" [.var 10, .var 11]) (V := ∅) (s := "b1") (s' := "b2") (a := 10) (b := 11) (by decide) (by decide) (by decide)
    have h2 := pairBound (g := joinG jS) hbl (hd := mkT "c" [.var 12, .var 13]) (V := ∅) (s := "c1") (s' := "c2") (a := 12) (b := 13) (by decide) (by decide) (by decide)
    show (List.map (fun t => stypeBound (joinG jS) t.1 ∅ t.2) [(mkT "b" [.var 10, .var 11], [mkT "b1" [.var 10], mkT "b2" [.var 11]]),
      (mkT "c" [.var 12, .var 13], [mkT "c1" [.var 12], mkT "c2" [.var 13]])]).sum = 5
    simp only [List.map_cons, List.map_nil, h1, h2]
    simp [joinG, jS]
    norm_num

/-- `path(X,Y) += edge(X,Y).` -/
private def oneP : List (WRule Nat) := [⟨mkT "path" [.var 3, .var 4], [.sub (mkT "edge" [.var 3, .var 4])]⟩]

private def oneG : TypeAn.Cfg := TypeAn.cfg (TypeAn.toTypeProgram oneP) [mkT "edge" [.var 0, .var 1], mkT "$free" [.var 2]] 3

private theorem oneW : TypeAn.World oneG TypeAn.pathI :=
  ⟨TypeAn.pathW.heads, TypeAn.pathW.eq, TypeAn.pathW.ops, TypeAn.pathW.con, TypeAn.pathW.free, TypeAn.pathW.input⟩

private def eS : Option Const → ℕ∞ := fun o => if o = some (.str "edge") then 2 else ⊤

private def edgeG (chart : List Ty) : Cfg := ⟨chart, isBuiltin [], fun R => .ty R.1 R.2, eS, false⟩

private theorem edgeSizes (ch : List Ty) : Sizes (edgeG ch) TypeAn.pathI := by
  rintro c ⟨k, as, rfl⟩ -
  show Set.encard {y | y ∈ TypeAn.pathI ∧ hfn y = some k} ≤ eS (some k)
  by_cases h1 : k = .str "edge"
  · subst h1
    have : {y | y ∈ TypeAn.pathI ∧ hfn y = some (.str "edge")} ⊆ {mkT "edge" [i 1, i 2], mkT "edge" [i 2, i 3]} := by
      rintro y ⟨h, e⟩
      rcases h with ⟨c, rfl⟩ | ⟨z, _, rfl⟩ | rfl | rfl
      · simp [hfn] at e
      · simp [hfn, mkT] at e
      · simp [i]
      · simp [i]
    refine (Set.encard_le_encard this).trans ((Set.encard_insert_le _ _).trans ?_)
    simp [eS]
    norm_num
  · simp [eS, h1]

private theorem edgeBound (ch : List Ty) (hd : Tm) (V : Finset Nat) (a b : Tm) (h : vars hd ⊆ V ∪ (vars a ∪ vars b)) (h2 : ¬ vars a ⊆ V) :
    stypeBound (edgeG ch) hd V [mkT "edge" [a, b]] = 2 := by
  have hv : vars (mkT "edge" [a, b]) = vars a ∪ vars b := by simp [mkT]
  have hb : (edgeG ch).builtin (mkT "edge" [a, b]) = false := by simp [edgeG, isBuiltin, mkT]
  have hs : (edgeG ch).size (hfn (mkT "edge" [a, b])) = 2 := by simp [edgeG, eS, mkT, hfn]
  have h3 : ¬ (vars a ∪ vars b ⊆ V) := fun h => h2 (Finset.union_subset_left h)
  simp [stypeBound, stb, lookupBounds, hv, hb, hs, h3, h]

example : {x | TypeAn.Derives oneP TypeAn.pathI x}.encard ≤ 2 := by
  have e : TypeAn.runBasic oneG 20 10 10 = some ((edgeG [(mkT "path" [.var 14, .var 15], [mkT "edge" [.var 14, .var 15]])]).chart, 18) := by
    decide +kernel
  refine (C65_items oneW (TypeAn.cfg_sound _ _ _ _ {0, 1, 2}) rfl (by decide) (by decide) (by decide) ?_ e (edgeSizes _) ?_).trans (le_of_eq ?_)
  · intro r hr
    obtain ⟨h1, h2, h3⟩ := TypeAn.path_ok (W := Nat) r (by simp only [oneP, List.mem_singleton] at hr; simp [TypeAn.pathP, hr])
    exact ⟨h1, h2, h3⟩
  · intro t ht c hc
    simp only [edgeG, List.mem_singleton] at ht
    subst ht
    rw [List.mem_singleton.1 hc]
    exact ⟨_, _, rfl⟩
  · show stypeBound _ _ _ _ + 0 = 2
    rw [edgeBound _ _ _ _ _ (by decide) (by decide), add_zero]

private def qT : List Ty := [(mkT "path" [.var 104, i 3], [mkT "edge" [.var 104, i 3]])]

private theorem qBound (ch : List Ty) : typeBound (edgeG ch) 20 ∅ (mkT "path" [.var 16, i 3]) qT = some 2 := by
  have : typeBound (edgeG ch) 20 ∅ (mkT "path" [.var 16, i 3]) qT = some (0 + stypeBound (edgeG ch) (mkT "path" [.var 16, i 3]) ∅ [mkT "edge" [.var 16, i 3]]) := rfl
  rw [this, edgeBound _ _ _ _ _ (by decide) (by decide), zero_add]

example : {x | ∃ σ, Propagate.Ground σ ∧ Agree ∅ σ (fun n => .var n) ∧ x = (mkT "path" [.var 16, i 3]).sub σ ∧ x ∈ Cover TypeAn.pathI qT}.encard ≤ 2 :=
  C65_query (edgeSizes []) (by simp) _ (by
    intro t ht
    simp only [qT, List.mem_singleton] at ht
    subst ht
    exact ⟨fun c hc => by rw [List.mem_singleton.1 hc]; exact ⟨_, _, rfl⟩, by decide⟩) (qBound [])

example (σ0 : Nat → Tm) : {x | x ∈ DenAt TypeAn.pathI (mkT "path" [.var 16, i 3], [mkT "edge" [.var 16, i 3]]) ∅ σ0 ∧
    x ∈ Cover TypeAn.pathI [(mkT "path" [.var 12, .var 13], [])]}.encard ≤ 2 := by
  refine C65_type_bound (f := 20) (k := 100) (k' := 105) (T := qT) (g := edgeG [(mkT "path" [.var 12, .var 13], [])]) TypeAn.pathW (TypeAn.cfg_sound _ _ _ _ {0, 1, 2})
    (by decide) (by decide) (by decide) ?_ (TypeAn.path_user _) ?_ (by decide +kernel) ?_ (edgeSizes _) (by simp) σ0 (qBound _)
  · intro t ht
    simp only [edgeG, List.mem_singleton] at ht
    subst ht
    exact TypeAn.path_user _
  · intro c hc
    rw [List.mem_singleton.1 hc]
    exact ⟨_, _, rfl⟩
  · intro t ht
    simp only [qT, List.mem_singleton] at ht
    subst ht
    exact ⟨fun c hc => by rw [List.mem_singleton.1 hc]; exact ⟨_, _, rfl⟩, by decide⟩

/-! `rewrites(·)` with the rule `b(X) ⇐ a(X)` -/

private noncomputable def abR : Cfg := ⟨[], isBuiltin [], fun R => TypeAn.abG.simp 0 R, fun _ => ⊤, false⟩

example {R : Ty} {σ : Nat → Tm} (hR : ∀ c ∈ R.2, Avoids {0} c)
    (hσ : Solution (Rewrites.std {mkT "a" [.con (.int 1)], mkT "b" [.con (.int 1)]}) R.2 σ) :
    abR.simp R ≠ .none ∧ ∀ hd C, abR.simp R = .ty hd C →
      Solution (Rewrites.std {mkT "a" [.con (.int 1)], mkT "b" [.con (.int 1)]}) C σ ∧ ∀ c ∈ C, Avoids {0} c := by
  refine C66_rewrites (ui := true) (E := Rewrites.env [(mkT "b" [.var 0], [mkT "a" [.var 0]])]) (L := {0}) ?_ ?_ (fun R h => ?_) (fun R h => ?_) hR hσ
  · exact Rewrites.env_apart (by simp [mkT]) (by simp [mkT]) (by simp)
  · refine Rewrites.std_model (by simp [Propagate.eqT, mkT, Propagate.fnc]) (by simp [Propagate.FAIL, mkT]) ?_
    intro r hr θ _ hb
    simp only [List.mem_singleton] at hr
    subst hr
    have h := hb (mkT "a" [.var 0]) (by simp)
    rcases h with ⟨a, h⟩ | ⟨a, h⟩ | ⟨a, h⟩ | h
    · simp [mkT, Propagate.eqT, Propagate.fnc] at h
    · simp [mkT, Rewrites.t1, Propagate.fnc] at h
    · simp [mkT, Rewrites.t1, Propagate.fnc] at h
    · simp [mkT] at h
      exact .inr (.inr (.inr (by simp [mkT, h])))
  · simp only [abR, TypeAn.abG] at h ⊢
    split at h
    · next h1 => rw [dif_pos h1]; exact h1.choose_spec
    · exact absurd rfl h
  · simp only [abR, TypeAn.abG] at h
    split at h <;> cases h

/-! Constants: `goal += 3 * b(I,J)`. -/

example (r : ℕ∞) (e : ruleTime (joinG jS) 20 [.con (.int 3), mkT "b" [.var 0, .var 1]] = some r) : r = 1 :=
  C66_constant rfl e (c := .int 3) (by simp) rfl jTyped.flat

example (r : ℕ∞) (e : ruleTime (joinG jS) 20 [mkT "b" [.var 0, .var 1], mkT "d" [.var 0]] = some r) : r = 1 :=
  C66_untyped rfl e (p := mkT "d" [.var 0]) (by simp) rfl

/-! ### Types that are not flat

The types of the chart are not renamed when they are looked up, so two subgoals with the same type share the
variables inside their arguments. -/

/-- `e(g(X),Y) :- n(X,Y)`, with the rewriting rule `$fail :- n(X,1), n(X,2)` -/
def shG (k : Nat) : Cfg where
  chart := [(mkT "e" [mkT "g" [.var 10], .var 11], [mkT "n" [.var 10, .var 11]])]
  builtin := isBuiltin []
  simp R := if R.2.any fun c => match c with
    | .app [.con (.str "n"), x, .con (.int 1)] => R.2.contains (mkT "n" [x, .con (.int 2)])
    | _ => false then .none else .ty R.1 R.2
  size o := if o = some (.str "n") then 2 * k else 0
  fast := false

def shI (k : Nat) : Set Tm := {x | ∃ m : Nat, m < k ∧ (x = mkT "n" [.con (.int m), .con (.int 1)] ∨ x = mkT "n" [.con (.int (m + k : Nat)), .con (.int 2)])}

def shD (k : Nat) : Set Tm := {x | ∃ a b, mkT "n" [a, b] ∈ shI k ∧ x = mkT "e" [mkT "g" [a], b]}

/-- `goal += e(A,1) * e(B,2)` -/
def shB : List Tm := [mkT "e" [.var 0, .con (.int 1)], mkT "e" [.var 1, .con (.int 2)]]

/-- **C66, shared variables.**  With a type that is not flat the bound can be too small: all its other assumptions
hold, the bound is `1 + 2k`, and there are `k²` instances. -/
theorem C66_shared (k : Nat) : Sizes (shG k) (shI k) ∧ (∀ x ∈ shD k, x ∈ Cover (shI k) (shG k).chart) ∧
    (∀ R σ, Solution (shI k) R.2 σ → (shG k).simp R = .ty R.1 R.2) ∧
    ruleTime (shG k) 20 shB = some (1 + 2 * k) ∧ (k * k : ℕ∞) ≤ (Instances (shD k) shB).encard := by
  refine ⟨?_, ?_, ?_, ?_, ?_⟩
  · rintro c ⟨h, as, rfl⟩ -
    show Set.encard {y | y ∈ shI k ∧ hfn y = some h} ≤ if some h = some (.str "n") then 2 * (k : ℕ∞) else 0
    by_cases e : h = .str "n"
    · subst e
      rw [if_pos rfl]
      have : {y | y ∈ shI k ∧ hfn y = some (.str "n")} ⊆ (fun m : Nat => mkT "n" [.con (.int m), .con (.int 1)]) '' (Finset.range k : Set Nat) ∪
          (fun m : Nat => mkT "n" [.con (.int (m + k : Nat)), .con (.int 2)]) '' (Finset.range k : Set Nat) := by
        rintro y ⟨⟨m, hm, rfl | rfl⟩, -⟩
        · exact .inl ⟨m, by simpa using hm, rfl⟩
        · exact .inr ⟨m, by simpa using hm, rfl⟩
      refine (Set.encard_le_encard this).trans ((Set.encard_union_le _ _).trans ?_)
      rw [two_mul]
      refine add_le_add ((Set.encard_image_le _ _).trans ?_) ((Set.encard_image_le _ _).trans ?_) <;>
        rw [Set.encard_coe_eq_coe_finsetCard, Finset.card_range]
    · have : {y | y ∈ shI k ∧ hfn y = some h} = ∅ := by
        ext y
        simp only [Set.mem_setOf_eq, Set.mem_empty_iff_false, iff_false]
        rintro ⟨⟨m, hm, rfl | rfl⟩, e'⟩ <;> (simp only [mkT, hfn, Option.some.injEq] at e'; exact e e'.symm)
      rw [this]; simp
  · rintro x ⟨a, b, h, rfl⟩
    have hab : vars a = ∅ ∧ vars b = ∅ := by
      obtain ⟨m, _, h | h⟩ := h <;> (simp only [mkT, Tm.app.injEq, List.cons.injEq, true_and, and_true] at h; rw [h.1, h.2]; simp)
    refine ⟨(mkT "e" [mkT "g" [.var 10], .var 11], [mkT "n" [.var 10, .var 11]]), by simp [shG], fun n => if n = 10 then a else b, ⟨fun n => ?_, ?_⟩, ?_⟩
    · show vars (if _ then _ else _) = _
      split
      · exact hab.1
      · exact hab.2
    · intro c hc
      rw [List.mem_singleton.1 hc]
      simpa [mkT] using h
    · simp [mkT]
  · intro R σ h
    simp only [shG]
    rw [if_neg]
    intro ht
    obtain ⟨c, hc, ht⟩ := List.any_eq_true.1 ht
    split at ht
    · have hd := List.contains_iff_mem.1 ht
      obtain ⟨m, hm, e | e⟩ := h.2 _ hc
      · obtain ⟨m', hm', e' | e'⟩ := h.2 _ hd
        · simp [mkT] at e'
        · simp only [mkT, sub_app, List.map_cons, List.map_nil, sub_con, Tm.app.injEq, List.cons.injEq, true_and, and_true] at e e'
          rw [e] at e'
          simp only [Tm.con.injEq, Const.int.injEq] at e'
          omega
      · simp [mkT] at e
    · cases ht
  · obtain ⟨h1, h2, e1, e2, e3, e4⟩ : ∃ h1 h2, lookup (shG k) 20 (mkT "e" [.var 0, .con (.int 1)]) =
        some [(h1, mkT "e" [mkT "g" [.var 10], .con (.int 1)], [mkT "n" [.var 10, .con (.int 1)]])] ∧ lookup (shG k) 20 (mkT "e" [.var 1, .con (.int 2)]) =
        some [(h2, mkT "e" [mkT "g" [.var 10], .con (.int 2)], [mkT "n" [.var 10, .con (.int 2)]])] ∧
        allSome [Subst.callF h1 20 (mkT "n" [.var 10, .con (.int 2)])] = some [mkT "n" [.var 10, .con (.int 2)]] ∧
        allSome [Subst.callF h2 20 (mkT "n" [.var 10, .con (.int 1)])] = some [mkT "n" [.var 10, .con (.int 1)]] := ⟨_, _, rfl, rfl, rfl, rfl⟩
    have hf : (shG k).fast = false := rfl
    have hs : (shG k).size (some (.str "n")) = 2 * k := rfl
    have q : ∀ z : Int, stypeBound (shG k) (mkT "e" [mkT "g" [.var 10], .con (.int z)]) ∅ [mkT "n" [.var 10, .con (.int z)]] = 2 * k := fun z => by
      have hv : vars (mkT "n" [.var 10, .con (.int z)]) = {10} := by simp [mkT]
      have hh : vars (mkT "e" [mkT "g" [.var 10], .con (.int z)]) = {10} := by simp [mkT]
      have hb : (shG k).builtin (mkT "n" [.var 10, .con (.int z)]) = false := rfl
      have hn : hfn (mkT "n" [.var 10, .con (.int z)]) = some (.str "n") := rfl
      simp [stypeBound, stb, lookupBounds, hv, hb, hs, hn, hh]
    have m1 : (shG k).simp (mkT "e" [mkT "g" [.var 10], .con (.int 2)], [mkT "n" [.var 10, .con (.int 2)], mkT "n" [.var 10, .con (.int 1)]]) = .none := by
      simp [shG, mkT]
    have m2 : (shG k).simp (mkT "e" [mkT "g" [.var 10], .con (.int 1)], [mkT "n" [.var 10, .con (.int 1)], mkT "n" [.var 10, .con (.int 2)]]) = .none := by
      simp [shG, mkT]
    have m3 : (shG k).simp (mkT "e" [mkT "g" [.var 10], .con (.int 1)], [mkT "n" [.var 10, .con (.int 1)]]) = .ty (mkT "e" [mkT "g" [.var 10], .con (.int 1)]) [mkT "n" [.var 10, .con (.int 1)]] := by
      simp [shG, mkT]
    have m4 : (shG k).simp (mkT "e" [mkT "g" [.var 10], .con (.int 2)], [mkT "n" [.var 10, .con (.int 2)]]) = .ty (mkT "e" [mkT "g" [.var 10], .con (.int 2)]) [mkT "n" [.var 10, .con (.int 2)]] := by
      simp [shG, mkT]
    have s1 : ∀ V, suffixtime (shG k) 20 1 [mkT "e" [.var 1, .con (.int 2)]] [mkT "n" [.var 10, .con (.int 1)]] V = some 1 := fun V => by
      simp [suffixtime, hf, e2, sumM, minM, typeTime, e4, m1]
    have s2 : ∀ V, suffixtime (shG k) 20 1 [mkT "e" [.var 0, .con (.int 1)]] [mkT "n" [.var 10, .con (.int 2)]] V = some 1 := fun V => by
      simp [suffixtime, hf, e1, sumM, minM, typeTime, e3, m2]
    have er : shB.erase (mkT "e" [.var 0, .con (.int 1)]) = [mkT "e" [.var 1, .con (.int 2)]] ∧ shB.erase (mkT "e" [.var 1, .con (.int 2)]) = [mkT "e" [.var 0, .con (.int 1)]] := by
      decide
    unfold ruleTime
    rw [show shB.dedup = shB by decide, show shB.length = 1 + 1 from rfl]
    conv_lhs => rw [shB, suffixtime]
    simp only [hf, Bool.false_eq_true, if_false, List.map_cons, List.map_nil, e1, e2, sumM, minM, typeTime, allSome, List.append_nil, m3, m4, q,
      List.dedup_cons_of_notMem, List.not_mem_nil, not_false_eq_true, List.dedup_nil]
    rw [show [mkT "e" [.var 0, .con (.int 1)], mkT "e" [.var 1, .con (.int 2)]] = shB from rfl, er.1, er.2]
    simp [s1, s2]
  · let F : Nat × Nat → List Tm := fun p => [mkT "e" [mkT "g" [.con (.int p.1)], .con (.int 1)], mkT "e" [mkT "g" [.con (.int (p.2 + k : Nat))], .con (.int 2)]]
    have hinj : Set.InjOn F ((Finset.range k ×ˢ Finset.range k : Finset (Nat × Nat)) : Set (Nat × Nat)) := by
      rintro ⟨a, b⟩ _ ⟨a', b'⟩ _ e
      simp [F, mkT] at e
      simp only [Prod.mk.injEq]
      omega
    have hc := hinj.encard_image
    rw [Set.encard_coe_eq_coe_finsetCard, Finset.card_product, Finset.card_range] at hc
    push_cast at hc
    rw [← hc]
    refine Set.encard_le_encard ?_
    rintro _ ⟨⟨a, b⟩, hab, rfl⟩
    simp only [Finset.coe_product, Finset.coe_range, Set.mem_prod, Set.mem_Iio] at hab
    refine ⟨fun n => if n = 0 then mkT "g" [.con (.int a)] else mkT "g" [.con (.int (b + k : Nat))], fun n => ?_, ?_, ?_⟩
    · show vars (if _ then _ else _) = _
      split <;> simp [mkT]
    · intro p hp
      simp only [shB, List.mem_cons, List.not_mem_nil, or_false] at hp
      rcases hp with rfl | rfl
      · exact ⟨.con (.int a), .con (.int 1), ⟨a, hab.1, .inl rfl⟩, by simp [mkT]⟩
      · exact ⟨.con (.int (b + k : Nat)), .con (.int 2), ⟨b, hab.2, .inr rfl⟩, by simp [mkT]⟩
    · simp [shB, F, mkT]

/-- so the bound is too small: 7 for 9 instances -/
example : ruleTime (shG 3) 20 shB = some 7 ∧ 9 ≤ (Instances (shD 3) shB).encard := by
  obtain ⟨-, -, -, h1, h2⟩ := C66_shared 3
  refine ⟨?_, ?_⟩
  · rw [h1]; norm_num
  · refine le_trans ?_ h2
    norm_num

end Examples
end Runtime
end Verif
