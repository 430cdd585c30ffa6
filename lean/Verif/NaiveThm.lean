/-
Properties C26 (rounds of forward chaining), C27 (semi-naive evaluation) and C28 (`Program.agenda`).
The step operator is `Solver.rhs`: the sum over all ground instances of all rules, defined in `SolverThm`
without reference to any evaluation strategy.
-/
import Verif.Naive
import Verif.QueryThm
import Mathlib.Tactic.Ring

set_option linter.unusedSectionVars false
set_option linter.unusedSimpArgs false

namespace Verif
open Tm Heap

namespace Naive
open Solver (forEach forEach_restores forEach_cons_done RunCalls unify_done litVars ground_val value dataAt litVal instVal contrib rhs
  Safe GSub InRule Bnd multiple noHeap good_noHeap restr restr_in restr_head Sat LitSat)
open Query
variable {K : Type} [CommSemiring K]

/-! ### Charts as dictionaries -/

/-- a chart with ground heads, one rule per head -/
structure OkD (d : Dict Tm K) : Prop where
  wf : Dict.WF d
  ground : ∀ x ∈ Dict.keys d, Ground x

theorem OkD.nil : OkD ([] : Dict Tm K) := ⟨Dict.WF.nil, by simp⟩

theorem OkD.src {d : Dict Tm K} (h : OkD d) (b : Bool) : Src.Ok ⟨d, b⟩ :=
  ⟨fun e he => h.ground e.1 (List.mem_map.2 ⟨e, he, rfl⟩), List.Nodup.of_map _ h.wf⟩

/-- from `s` to `s'` the amount `δ x` has been added to every item -/
structure AddsD (s s' : Dict Tm K) (δ : Tm → K) : Prop where
  inv : OkD s → OkD s'
  val : ∀ x, value s' x = value s x + δ x

theorem AddsD.refl (s : Dict Tm K) : AddsD s s (fun _ => 0) := ⟨id, by simp⟩

theorem AddsD.trans {s s' s'' : Dict Tm K} {δ δ' : Tm → K} (h : AddsD s s' δ) (h' : AddsD s' s'' δ') :
    AddsD s s'' (fun x => δ x + δ' x) :=
  ⟨fun i => h'.inv (h.inv i), fun x => by rw [h'.val, h.val, add_assoc]⟩

theorem addTo_adds {dead : K → Bool} (hd : ∀ c, dead c = true → c = 0) {q : Dict Tm K} {x : Tm} {c : K} (hx : Ground x) :
    AddsD q (addTo dead q x c) (fun y => if x = y then c else 0) := by
  unfold addTo
  split
  · rename_i h
    rw [hd c h]
    exact ⟨id, by simp⟩
  · refine ⟨fun i => ⟨i.wf.set _ _, ?_⟩, fun y => ?_⟩
    · intro y hy
      rcases (Solver.mem_keys_set _ _ _ _).1 hy with rfl | hy
      · exact hx
      · exact i.ground y hy
    · unfold value
      rw [Dict.get_set]
      by_cases h : x = y
      · subst h
        cases hv : Dict.get q x <;> simp [Solver.plus]
      · simp [h]

theorem calls_addsD {α : Type} {k : α → Body (Dict Tm K)} {δ : α × Heap → Tm → K} {L : List (α × Heap)} {s s' : Dict Tm K}
    (h : RunCalls k L s s') (hk : ∀ p ∈ L, ∀ s s', k p.1 p.2 s = some (p.2, s', .done) → AddsD s s' (δ p)) :
    AddsD s s' (fun x => (L.map fun p => δ p x).sum) := by
  induction h with
  | nil => simpa using AddsD.refl _
  | cons e _ ih =>
    have h1 := hk _ List.mem_cons_self _ _ e
    have h2 := ih fun p hp => hk p (by simp [hp])
    simpa using h1.trans h2

theorem forEach_addsD {α : Type} {b : α → Body (Dict Tm K)} (hb : ∀ a, Restores (b a)) {δ : α → Tm → K} {h : Heap} :
    ∀ {l : List α} {s h' s'}, (∀ a ∈ l, ∀ s s', b a h s = some (h, s', .done) → AddsD s s' (δ a)) →
      forEach l b h s = some (h', s', .done) → AddsD s s' (fun x => (l.map fun a => δ a x).sum) := by
  intro l
  induction l with
  | nil =>
    intro s h' s' _ e
    simp only [forEach, Option.some.injEq, Prod.mk.injEq, and_true] at e
    obtain ⟨_, rfl⟩ := e
    simpa using AddsD.refl _
  | cons a l ih =>
    intro s h' s' hl e
    obtain ⟨h1, s1, e1, e2⟩ := forEach_cons_done e
    have := hb a _ _ _ _ _ e1
    subst this
    have a1 := hl a (by simp) _ _ e1
    have a2 := ih (fun b hb => hl b (by simp [hb])) e2
    simpa using a1.trans a2

theorem multiple_ground {r : SRule K} {h : Heap} (hn : ∀ n, InRule r n → Ground (res h n)) {inf m : K} {f : Nat}
    (e : multiple inf f h r = some m) : m = 1 := by
  unfold multiple at e
  split at e
  · rename_i b hd eb eh
    simp only [Option.some.injEq] at e
    have hb : vars b = ∅ := by
      rw [deref_eq_sub eb]
      refine Solver.ground_sub fun n hn' => hn n (.inr ?_)
      simp only [vars_app, mem_varsL, List.mem_flatMap] at hn'
      obtain ⟨t, ⟨z, hz, ht⟩, hn'⟩ := hn'
      refine ⟨z, hz, ?_⟩
      cases z with
      | val k => simp [Solver.litTerms] at ht
      | sub t' => simp [Solver.litTerms] at ht; subst ht; exact hn'
      | eq x y => simp [Solver.litTerms] at ht; rcases ht with rfl | rfl <;> simp [litVars, hn']
      | cmp o x y => simp [Solver.litTerms] at ht; rcases ht with rfl | rfl <;> simp [litVars, hn']
    rw [hb] at e
    simpa using e.symm
  · simp at e

theorem setItem_restores {g : Cfg K} {f : Nat} {r : SRule K} {P : List K} : Restores (setItem g f r P) := by
  intro h s h' s' sig e
  unfold setItem at e
  split at e
  · simp at e; exact e.1.symm
  · simp at e; exact e.1.symm
  · simp at e

theorem setItem_adds {g : Cfg K} (hd : ∀ c, g.dead c = true → c = 0) {f : Nat} {r : SRule K} {P : List K} {h : Heap} (hg : Good h)
    (hn : ∀ n, InRule r n → Ground (res h n)) {s h' s'} (e : setItem g f r P h s = some (h', s', .done)) :
    AddsD s s' (fun x => if r.head.sub (res h) = x then P.prod else 0) := by
  unfold setItem at e
  split at e
  · rename_i m x em eg ed
    have hm := multiple_ground hn em
    subst hm
    simp only [Option.some.injEq, Prod.mk.injEq, and_true, mul_one] at e
    obtain ⟨_, rfl⟩ := e
    have hx := deref_eq_sub ed
    have hgr := (ground_val hg eg).1 rfl
    rw [← hx] at hgr ⊢
    rw [← List.prod_eq_foldl]
    exact addTo_adds hd hgr
  · simp at e
  · simp at e

/-! ### Sums over instances -/

/-- the value of a body element looked up in a chart -/
def srcVal (src : Src K) (θ : Nat → Tm) (z : BLit K) : K :=
  match z with
  | .sub t => value src.ent (t.sub θ)
  | z => if src.bi then litVal (fun _ => 0) θ z else 0

/-- one entry per item -/
def Fun1 (src : Src K) : Prop := Dict.WF src.ent

theorem srcVal_sat {src : Src K} (hf : Fun1 src) {θ : Nat → Tm} {z : BLit K} {b : K} (h : Sat1 id θ (src, z) b) : srcVal src θ z = b := by
  cases z with
  | val k => obtain ⟨h1, h2⟩ := h; simp only at h1; simp [srcVal, litVal, h2, h1]
  | sub t =>
    have := Dict.get_of_mem hf h
    simp [srcVal, value, this]
  | eq x y => obtain ⟨h1, h2, h3⟩ := h; simp only at h1; simp [srcVal, litVal, h2, h1, h3]
  | cmp o x y => obtain ⟨h1, h2, h3⟩ := h; simp only at h1; simp [srcVal, litVal, h2, h1, h3]

theorem srcVal_unsat {src : Src K} {θ : Nat → Tm} {z : BLit K} (h : ∀ b, ¬ Sat1 id θ (src, z) b) : srcVal src θ z = 0 := by
  cases z with
  | val k =>
    have : src.bi = false := by
      cases hb : src.bi with
      | false => rfl
      | true => exact absurd ⟨hb, rfl⟩ (h k)
    simp [srcVal, this]
  | sub t =>
    cases hg : Dict.get src.ent (t.sub θ) with
    | none => simp [srcVal, value, hg]
    | some v => exact absurd (Dict.mem_of_get hg) (h v)
  | eq x y =>
    cases hb : src.bi with
    | false => simp [srcVal, hb]
    | true =>
      have : ¬ x.sub θ = y.sub θ := fun e => h 1 ⟨hb, e, rfl⟩
      simp [srcVal, litVal, this]
  | cmp o x y =>
    cases hb : src.bi with
    | false => simp [srcVal, hb]
    | true =>
      have : ¬ o (x.sub θ) (y.sub θ) = true := fun e => h 1 ⟨hb, e, rfl⟩
      simp only [srcVal, litVal, if_neg this]; simp

theorem prod_sat {zs : List (Src K × BLit K)} (hf : ∀ p ∈ zs, Fun1 p.1) {θ : Nat → Tm} {vs : List K}
    (h : List.Forall₂ (Sat1 id θ) zs vs) : (zs.map fun p => srcVal p.1 θ p.2).prod = vs.prod := by
  induction h with
  | nil => rfl
  | cons h1 _ ih =>
    simp only [List.map_cons, List.prod_cons]
    rw [srcVal_sat (hf _ (by simp)) h1, ih fun p hp => hf p (by simp [hp])]

theorem sat_of_prod {zs : List (Src K × BLit K)} {θ : Nat → Tm} (h : (zs.map fun p => srcVal p.1 θ p.2).prod ≠ 0) :
    ∃ vs, List.Forall₂ (Sat1 id θ) zs vs := by
  induction zs with
  | nil => exact ⟨[], .nil⟩
  | cons z zs ih =>
    simp only [List.map_cons, List.prod_cons] at h
    obtain ⟨vs, hvs⟩ := ih (right_ne_zero_of_mul h)
    have h1 : ∃ b, Sat1 id θ z b := by
      by_contra hn
      exact left_ne_zero_of_mul h (srcVal_unsat fun b hb => hn ⟨b, hb⟩)
    obtain ⟨b, hb⟩ := h1
    exact ⟨b :: vs, .cons hb hvs⟩

/-- a dictionary with the items of all charts of a conjunction -/
def allEnt (zs : List (Src K × BLit K)) : Dict Tm K := zs.flatMap fun p => p.1.ent

theorem litSat_of_sat1 {zs : List (Src K × BLit K)} {θ : Nat → Tm} {p : Src K × BLit K} (hp : p ∈ zs) {b : K} (h : Sat1 id θ p b) :
    ∃ v, LitSat (allEnt zs) θ p.2 v := by
  obtain ⟨src, z⟩ := p
  cases z with
  | val k => exact ⟨k, rfl⟩
  | sub t =>
    have : t.sub θ ∈ Dict.keys (allEnt zs) := List.mem_map.2 ⟨(t.sub θ, b), List.mem_flatMap.2 ⟨_, hp, h⟩, rfl⟩
    exact (Dict.mem_keys_iff_get _ _).1 this
  | eq x y => exact ⟨1, h.2.1, rfl⟩
  | cmp o x y => exact ⟨1, h.2.1, rfl⟩

theorem sat_all {zs : List (Src K × BLit K)} {body : List (BLit K)} (hmem : ∀ z, z ∈ body ↔ z ∈ zs.map Prod.snd)
    {θ : Nat → Tm} {vs : List K} (h : List.Forall₂ (Sat1 id θ) zs vs) : ∀ z ∈ body, ∃ v, LitSat (allEnt zs) θ z v := by
  intro z hz
  obtain ⟨p, hp, rfl⟩ := List.mem_map.1 ((hmem z).1 hz)
  obtain ⟨b, _, hb⟩ : ∃ b ∈ vs, Sat1 id θ p b := by
    clear hmem hz
    induction h with
    | nil => simp at hp
    | cons h1 _ ih =>
      rcases List.mem_cons.1 hp with rfl | hp
      · exact ⟨_, by simp, h1⟩
      · obtain ⟨b, hb, h2⟩ := ih hp
        exact ⟨b, by simp [hb], h2⟩
  exact litSat_of_sat1 hp hb

theorem allEnt_ground {zs : List (Src K × BLit K)} (hok : ∀ p ∈ zs, p.1.Ok) : ∀ x ∈ Dict.keys (allEnt zs), Ground x := by
  intro x hx
  obtain ⟨e, he, rfl⟩ := List.mem_map.1 hx
  obtain ⟨p, hp, he⟩ := List.mem_flatMap.1 he
  exact (hok p hp).ground e he

theorem yield_ground {r : SRule K} (hr : Safe r) {zs : List (Src K × BLit K)} (hmem : ∀ z, z ∈ r.body ↔ z ∈ zs.map Prod.snd)
    (hok : ∀ p ∈ zs, p.1.Ok) {θ : Nat → Tm} {vs : List K} (h : List.Forall₂ (Sat1 id θ) zs vs) {n : Nat} (hn : InRule r n) :
    Ground (θ n) := Solver.bnd_ground (allEnt_ground hok) (sat_all hmem h) (hr.bnd n hn)

open Classical in
/-- the contribution of one instance, the elements of the body looked up in different charts -/
noncomputable def zAt (r : SRule K) (zs : List (Src K × BLit K)) (x : Tm) (θ : Nat → Tm) : K :=
  if θ ∈ GSub r ∧ r.head.sub θ = x then (zs.map fun p => srcVal p.1 θ p.2).prod else 0

theorem zAt_support {r : SRule K} {zs : List (Src K × BLit K)} (hmem : ∀ z, z ∈ r.body ↔ z ∈ zs.map Prod.snd) {x : Tm} {θ : Nat → Tm}
    (h : zAt r zs x θ ≠ 0) : θ ∈ Sat (allEnt zs) r ∧ ∃ vs, List.Forall₂ (Sat1 id θ) zs vs := by
  unfold zAt at h
  split at h
  · rename_i hc
    obtain ⟨vs, hvs⟩ := sat_of_prod h
    exact ⟨⟨hc.1, sat_all hmem hvs⟩, vs, hvs⟩
  · exact absurd rfl h

/-- the yields of a conjunction add up to the sum over the instances -/
theorem yields_sumD {r : SRule K} (hr : Safe r) {zs : List (Src K × BLit K)} (hmem : ∀ z, z ∈ r.body ↔ z ∈ zs.map Prod.snd)
    (hok : ∀ p ∈ zs, p.1.Ok) (hf : ∀ p ∈ zs, Fun1 p.1) {L : List (List K × Heap)} (hL : Yields id noHeap zs L) (x : Tm) :
    (L.map fun p => if r.head.sub (res p.2) = x then p.1.prod else 0).sum = ∑ᶠ θ, zAt r zs x θ := by
  classical
  have hs : ∀ p ∈ L, List.Forall₂ (Sat1 id (res p.2)) zs p.1 := fun p hp => (hL.sound p hp _ (hL.good p hp).respects_res).2
  have hgr : ∀ p ∈ L, ∀ n, InRule r n → Ground (res p.2 n) := fun p hp n hn => yield_ground hr hmem hok (hs p hp) hn
  have hin : ∀ z ∈ zs, ∀ n ∈ litVars z.2, InRule r n := fun z hz n hn =>
    .inr ⟨z.2, (hmem _).2 (List.mem_map.2 ⟨z, hz, rfl⟩), hn⟩
  have hvs : ∀ p ∈ L, ∀ θ, (∀ n, InRule r n → θ n = res p.2 n) → List.Forall₂ (Sat1 id θ) zs p.1 := by
    intro p hp θ hθ
    have : ∀ (zs : List (Src K × BLit K)) vs, (∀ z ∈ zs, ∀ n ∈ litVars z.2, θ n = res p.2 n) →
        List.Forall₂ (Sat1 id (res p.2)) zs vs → List.Forall₂ (Sat1 id θ) zs vs := by
      intro zs vs hz h
      induction h with
      | nil => exact .nil
      | @cons z b zs vs h1 _ ih =>
        refine .cons ?_ (ih fun z hz' => hz z (by simp [hz']))
        have hz := hz z (by simp)
        obtain ⟨src, z⟩ := z
        cases z with
        | val k => exact h1
        | sub t => simp only [Sat1, litVars] at *; rw [sub_congr hz]; exact h1
        | eq u v =>
          simp only [Sat1, litVars, Finset.mem_union] at *
          rw [sub_congr fun n hn => hz n (.inl hn), sub_congr fun n hn => hz n (.inr hn)]; exact h1
        | cmp o u v =>
          simp only [Sat1, litVars, Finset.mem_union] at *
          rw [sub_congr fun n hn => hz n (.inl hn), sub_congr fun n hn => hz n (.inr hn)]; exact h1
    exact this zs p.1 (fun z hz n hn => hθ n (hin z hz n hn)) (hs p hp)
  have hres : ∀ p ∈ L, restr r (res p.2) ∈ GSub r := fun p hp =>
    ⟨fun n hn => by rw [restr_in hn]; exact hgr p hp n hn, fun n hn => by simp [restr, hn]⟩
  have huniq : ∀ θ vs vs', List.Forall₂ (Sat1 id θ) zs vs → List.Forall₂ (Sat1 id θ) zs vs' → vs = vs' := by
    intro θ vs vs' h1 h2
    have : ∀ (zs : List (Src K × BLit K)) vs vs', (∀ p ∈ zs, Fun1 p.1) → List.Forall₂ (Sat1 id θ) zs vs →
        List.Forall₂ (Sat1 id θ) zs vs' → vs = vs' := by
      intro zs
      induction zs with
      | nil => intro vs vs' _ h1 h2; cases h1; cases h2; rfl
      | cons z zs ih =>
        intro vs vs' hf h1 h2
        cases h1 with
        | cons a1 b1 => cases h2 with
          | cons a2 b2 =>
            rw [ih _ _ (fun p hp => hf p (by simp [hp])) b1 b2, ← srcVal_sat (hf z (by simp)) a1, ← srcVal_sat (hf z (by simp)) a2]
    exact this zs vs vs' hf h1 h2
  have hnd : (L.map fun p => restr r (res p.2)).Nodup := by
    unfold List.Nodup
    rw [List.pairwise_map]
    refine hL.disjoint.imp_of_mem ?_
    intro p p' hp hp' hd e
    have hagree : ∀ n, InRule r n → res p.2 n = res p'.2 n := by
      intro n hn
      have := congrFun e n
      rwa [restr_in hn, restr_in hn] at this
    refine hd ?_ (res p.2) (res p'.2) (fun z hz n hn => hagree n (hin z hz n hn)) (hL.good p hp).respects_res (hL.good p' hp').respects_res
    exact huniq (res p.2) _ _ (hs p hp) (hvs p' hp' _ hagree)
  have hsup : Function.support (zAt r zs x) ⊆ ↑(L.map fun p => restr r (res p.2)).toFinset := by
    intro θ hθ
    obtain ⟨⟨g, _⟩, vs, h1⟩ := zAt_support hmem hθ
    obtain ⟨p, hp, h2, _⟩ := hL.complete θ vs (Solver.respects_noHeap θ) h1
    simp only [List.coe_toFinset, Set.mem_setOf_eq, List.mem_map]
    refine ⟨p, hp, ?_⟩
    funext n
    by_cases hn : InRule r n
    · rw [restr_in hn]
      have h4 := Solver.sub_eq_of_ground (hL.good p hp) (x := .var n) (by simpa using hgr p hp n hn) h2
      simpa using h4.symm
    · rw [g.2 n hn]; simp [restr, hn]
  rw [finsum_eq_sum_of_support_subset _ hsup, List.sum_toFinset _ hnd, List.map_map]
  congr 1
  refine List.map_congr_left fun p hp => ?_
  simp only [Function.comp, zAt, restr_head, hres p hp, true_and]
  rw [prod_sat hf (hvs p hp _ fun n hn => restr_in hn)]

theorem zAt_finite {r : SRule K} (hr : Safe r) {zs : List (Src K × BLit K)} (hmem : ∀ z, z ∈ r.body ↔ z ∈ zs.map Prod.snd) (x : Tm) :
    (Function.support (zAt r zs x)).Finite :=
  (Solver.sat_finite (chart := allEnt zs) hr.bnd).subset fun _ hθ => (zAt_support hmem hθ).1

/-! ### One application of the step operator -/

theorem srcVal_true {chart : Dict Tm K} {θ : Nat → Tm} {z : BLit K} : srcVal ⟨chart, true⟩ θ z = litVal (value chart) θ z := by
  cases z <;> simp [srcVal, litVal]

theorem prod_true {chart : Dict Tm K} {θ : Nat → Tm} {b : List (BLit K)} :
    ((b.map fun z => ((⟨chart, true⟩ : Src K), z)).map fun p => srcVal p.1 θ p.2).prod = instVal (value chart) b θ := by
  unfold instVal
  rw [List.map_map]
  congr 1
  exact List.map_congr_left fun z _ => srcVal_true

theorem pad_prod {body : List (BLit K)} {vs : List K} (h : vs.length = body.length) : (pad id body vs).prod = vs.prod := by
  cases body with
  | nil => simp at h; simp [pad, h]
  | cons z b => rfl

theorem safe_fn {r : SRule K} (hr : Safe r) : ∀ z ∈ r.body, FnOk z := by
  rintro z hz t rfl
  exact hr.fn t hz

theorem fire_adds {g : Cfg K} (hd : ∀ c, g.dead c = true → c = 0) {f : Nat} {chart : Dict Tm K} (hc : OkD chart) {r : SRule K}
    (hr : Safe r) {s h' s'} (e : getItem f id ⟨chart, true⟩ r.body (setItem g f r) noHeap s = some (h', s', .done)) :
    AddsD s s' (fun x => contrib r (value chart) x) := by
  obtain ⟨L, hL, hrun⟩ := getItem_spec (hc.src true) (safe_fn hr) (fun _ => setItem_restores) good_noHeap e
  have hmem : ∀ z, z ∈ r.body ↔ z ∈ (r.body.map fun z => ((⟨chart, true⟩ : Src K), z)).map Prod.snd := by
    intro z; simp [List.map_map, Function.comp_def]
  have hok : ∀ p ∈ r.body.map fun z => ((⟨chart, true⟩ : Src K), z), p.1.Ok := by
    intro p hp; obtain ⟨z, _, rfl⟩ := List.mem_map.1 hp; exact hc.src true
  have hf : ∀ p ∈ r.body.map fun z => ((⟨chart, true⟩ : Src K), z), Fun1 p.1 := by
    intro p hp; obtain ⟨z, _, rfl⟩ := List.mem_map.1 hp; exact hc.wf
  have := calls_addsD (δ := fun p x => if r.head.sub (res p.2) = x then p.1.prod else 0) hrun (by
    intro p hp s s' e
    have hs := (hL.sound p hp _ (hL.good p hp).respects_res).2
    have h1 := setItem_adds hd (hL.good p hp) (fun n hn => yield_ground hr hmem hok hs hn) e
    rwa [pad_prod (by simpa using hs.length_eq.symm)] at h1)
  refine ⟨this.inv, fun x => ?_⟩
  rw [this.val, yields_sumD hr hmem hok hf hL]
  congr 1
  unfold contrib
  refine finsum_congr fun θ => ?_
  unfold zAt Solver.instAt
  rw [prod_true]

/-- the step operator is computed exactly -/
theorem step_value {g : Cfg K} (hd : ∀ c, g.dead c = true → c = 0) (hr : ∀ r ∈ g.rules, Safe r) {f : Nat} {chart q : Dict Tm K}
    (hc : OkD chart) (e : stepF g f chart = some (q, .done)) : OkD q ∧ ∀ x, value q x = rhs g.rules (value chart) x := by
  unfold stepF at e
  rw [Option.map_eq_some_iff] at e
  obtain ⟨⟨h', q', sig⟩, e, e2⟩ := e
  simp only [Prod.mk.injEq] at e2
  obtain ⟨rfl, rfl⟩ := e2
  have := forEach_addsD (δ := fun r x => contrib r (value chart) x) (fun r => getItem_restores fun _ => setItem_restores)
    (fun r hrm s s' e => fire_adds hd hc (hr r hrm) e) e
  exact ⟨this.inv OkD.nil, fun x => by rw [this.val]; simp [value, rhs]⟩

/-! ### Changes -/

theorem mem_splits {α : Type} {l : List α} {p : List α × α × List α} (h : p ∈ splits l) : l = p.1 ++ p.2.1 :: p.2.2 := by
  induction l generalizing p with
  | nil => simp [splits] at h
  | cons a l ih =>
    simp only [splits, List.mem_cons, List.mem_map] at h
    rcases h with rfl | ⟨q, hq, rfl⟩
    · rfl
    · simp [ih hq]

/-- the charts consulted for one split: the change for the chosen element, the new chart to its left, the old
one to its right -/
def zsOf (old new d : Dict Tm K) (p : List (BLit K) × BLit K × List (BLit K)) : List (Src K × BLit K) :=
  ((⟨d, false⟩ : Src K), p.2.1) :: (p.1.map (fun z => ((⟨new, true⟩ : Src K), z)) ++ p.2.2.map fun z => ((⟨old, true⟩ : Src K), z))

theorem zsOf_mem {old new d : Dict Tm K} {body : List (BLit K)} {p} (hp : p ∈ splits body) (z : BLit K) :
    z ∈ body ↔ z ∈ (zsOf old new d p).map Prod.snd := by
  rw [mem_splits hp]
  simp only [zsOf, List.map_cons, List.map_append, List.map_map, Function.comp_def, List.map_id', List.mem_append, List.mem_cons]
  tauto

theorem zsOf_all {P : Src K → Prop} {old new d : Dict Tm K} {p} (h1 : P ⟨d, false⟩) (h2 : P ⟨new, true⟩) (h3 : P ⟨old, true⟩) :
    ∀ q ∈ zsOf old new d p, P q.1 := by
  intro q hq
  simp only [zsOf, List.mem_cons, List.mem_append, List.mem_map] at hq
  rcases hq with rfl | ⟨z, _, rfl⟩ | ⟨z, _, rfl⟩
  · exact h1
  · exact h2
  · exact h3

theorem zsOf_prod {old new d : Dict Tm K} {p : List (BLit K) × BLit K × List (BLit K)} {θ : Nat → Tm} :
    ((zsOf old new d p).map fun q => srcVal q.1 θ q.2).prod =
      instVal (value new) p.1 θ * srcVal ⟨d, false⟩ θ p.2.1 * instVal (value old) p.2.2 θ := by
  simp only [zsOf, List.map_cons, List.map_append, List.prod_cons, List.prod_append]
  rw [prod_true, prod_true]
  ring

theorem litVal_split {old new d : Dict Tm K} (hv : ∀ x, value new x = value old x + value d x) {θ : Nat → Tm} {z : BLit K} :
    litVal (value new) θ z = litVal (value old) θ z + srcVal ⟨d, false⟩ θ z := by
  cases z with
  | sub t => simp [litVal, srcVal, hv]
  | val k => simp [litVal, srcVal]
  | eq x y => simp [litVal, srcVal]
  | cmp o x y => simp [litVal, srcVal]

/-- the change of a product is the sum over the ways to take the change for one factor, the new value for the
factors before it and the old value for those after it -/
theorem instVal_split {old new d : Dict Tm K} (hv : ∀ x, value new x = value old x + value d x) {θ : Nat → Tm} : ∀ body : List (BLit K),
    instVal (value new) body θ = instVal (value old) body θ +
      ((splits body).map fun p => instVal (value new) p.1 θ * srcVal ⟨d, false⟩ θ p.2.1 * instVal (value old) p.2.2 θ).sum := by
  intro body
  induction body with
  | nil => simp [instVal, splits]
  | cons z b ih =>
    have hc : ∀ (v : Tm → K) z b, instVal v (z :: b) θ = litVal v θ z * instVal v b θ := fun v z b => by simp [instVal]
    simp only [splits, List.map_cons, List.sum_cons, List.map_map, Function.comp_def, hc]
    have h1 : (splits b).map (fun p => litVal (value new) θ z * instVal (value new) p.1 θ * srcVal ⟨d, false⟩ θ p.2.1 * instVal (value old) p.2.2 θ)
        = (splits b).map (fun p => litVal (value new) θ z * (instVal (value new) p.1 θ * srcVal ⟨d, false⟩ θ p.2.1 * instVal (value old) p.2.2 θ)) :=
      List.map_congr_left fun p _ => by ring
    rw [h1, List.sum_map_mul_left]
    rw [show instVal (value new) ([] : List (BLit K)) θ = 1 from by simp [instVal]]
    conv_lhs => rw [ih, mul_add]
    rw [litVal_split hv]
    ring

theorem contrib_split {old new d : Dict Tm K} (hv : ∀ x, value new x = value old x + value d x) {r : SRule K} (hr : Safe r) (x : Tm) :
    contrib r (value new) x = contrib r (value old) x + ((splits r.body).map fun p => ∑ᶠ θ, zAt r (zsOf old new d p) x θ).sum := by
  classical
  have f1 := Solver.C23_finite hr new x
  have f2 := Solver.C23_finite hr old x
  have f3 : ∀ p ∈ splits r.body, (Function.support (zAt r (zsOf old new d p) x)).Finite := fun p hp => zAt_finite hr (zsOf_mem hp) x
  have f4 : {θ | ∃ p ∈ splits r.body, θ ∈ Function.support (zAt r (zsOf old new d p) x)}.Finite := by
    have : {θ | ∃ p ∈ splits r.body, θ ∈ Function.support (zAt r (zsOf old new d p) x)} =
        ⋃ p ∈ {p | p ∈ splits r.body}, Function.support (zAt r (zsOf old new d p) x) := by
      ext θ; simp
    rw [this]
    exact Set.Finite.biUnion (List.finite_toSet _) f3
  set S : Finset (Nat → Tm) := f1.toFinset ∪ f2.toFinset ∪ f4.toFinset with hS
  unfold contrib
  rw [finsum_eq_sum_of_support_subset (s := S) _ (by intro θ hθ; simp only [hS, Finset.coe_union, Set.Finite.coe_toFinset]; exact .inl (.inl hθ)),
    finsum_eq_sum_of_support_subset (s := S) (f := Solver.instAt r (value old) x) (by
      intro θ hθ; simp only [hS, Finset.coe_union, Set.Finite.coe_toFinset]; exact .inl (.inr hθ))]
  have : (splits r.body).map (fun p => ∑ᶠ θ, zAt r (zsOf old new d p) x θ) = (splits r.body).map (fun p => ∑ θ ∈ S, zAt r (zsOf old new d p) x θ) := by
    refine List.map_congr_left fun p hp => finsum_eq_sum_of_support_subset _ ?_
    intro θ hθ
    simp only [hS, Finset.coe_union, Set.Finite.coe_toFinset]
    exact .inr ⟨p, hp, hθ⟩
  rw [this, Solver.sum_swap, ← Finset.sum_add_distrib]
  refine Finset.sum_congr rfl fun θ _ => ?_
  unfold Solver.instAt zAt
  split
  · simp only [zsOf_prod]
    exact instVal_split hv _
  · simp

/-- the lookups to the left and to the right of the chosen element -/
theorem pair_spec {S : Type} {f : Nat} {new old : Src K} (hn : new.Ok) (ho : old.Ok) {l r : List (BLit K)} (hl : ∀ z ∈ l, FnOk z)
    (hr : ∀ z ∈ r, FnOk z) {k : List K → List K → Body S} (hk : ∀ L R, Restores (k L R)) {h : Heap} (hg : Good h) {s h' s'}
    (e : getItem f id new l (fun L => getItem f id old r (k L)) h s = some (h', s', .done)) :
    ∃ M, Yields id h (l.map (fun z => (new, z)) ++ r.map fun z => (old, z)) M ∧
      RunCalls (fun vs => k (pad id l (vs.take l.length)) (pad id r (vs.drop l.length))) M s s' := by
  obtain ⟨L1, hL1, hr1⟩ := getItem_spec hn hl (fun L => getItem_restores (hk L)) hg e
  have := yields_bind (k := fun a ws => k (pad id l a) (pad id r ws)) (zs' := r.map fun z => (old, z))
    (inner := fun vs => getItem f id old r (k (pad id l vs))) (by
      intro a h1 s s1 g1 e1
      exact getItem_spec ho hr (hk _) g1 e1) L1 s s' hL1 hr1
  simpa using this

theorem pair_restores {S : Type} {f : Nat} {new old : Src K} {l r : List (BLit K)} {k : List K → List K → Body S} (hk : ∀ L R, Restores (k L R)) :
    Restores (getItem f id new l (fun L => getItem f id old r (k L))) :=
  getItem_restores fun L => getItem_restores (hk L)

/-- from the yields of a split to its contribution -/
theorem split_adds {g : Cfg K} (hd : ∀ c, g.dead c = true → c = 0) {f : Nat} {old new d : Dict Tm K} (ho : OkD old) (hn : OkD new) (hdd : OkD d)
    {r : SRule K} (hr : Safe r) {p} (hp : p ∈ splits r.body) {L : List (List K × Heap)} (hL : Yields id noHeap (zsOf old new d p) L) {s s'}
    (hrun : RunCalls (fun vs => setItem g f r (pad id p.1 ((vs.drop 1).take p.1.length) ++ vs.take 1 ++ pad id p.2.2 ((vs.drop 1).drop p.1.length))) L s s') :
    AddsD s s' (fun x => ∑ᶠ θ, zAt r (zsOf old new d p) x θ) := by
  have hok : ∀ q ∈ zsOf old new d p, q.1.Ok := zsOf_all (hdd.src _) (hn.src _) (ho.src _)
  have hf : ∀ q ∈ zsOf old new d p, Fun1 q.1 := zsOf_all (P := Fun1) hdd.wf hn.wf ho.wf
  have := calls_addsD (δ := fun p x => if r.head.sub (res p.2) = x then p.1.prod else 0) hrun (by
    intro q hq s s' e
    have hs := (hL.sound q hq _ (hL.good q hq).respects_res).2
    have h1 := setItem_adds hd (hL.good q hq) (fun n hn => yield_ground hr (zsOf_mem hp) hok hs hn) e
    have hlen := hs.length_eq
    obtain ⟨b, ws, hbw⟩ : ∃ b ws, q.1 = b :: ws := by
      cases hq1 : q.1 with
      | nil => rw [hq1] at hlen; simp [zsOf] at hlen
      | cons b ws => exact ⟨b, ws, rfl⟩
    rw [hbw] at hlen h1 ⊢
    simp only [zsOf, List.length_cons, List.length_append, List.length_map, Nat.add_right_cancel_iff] at hlen
    have h2 : (pad id p.1 (((b :: ws).drop 1).take p.1.length) ++ (b :: ws).take 1 ++ pad id p.2.2 (((b :: ws).drop 1).drop p.1.length)).prod = (b :: ws).prod := by
      simp only [List.drop_succ_cons, List.drop_zero, List.take_succ_cons, List.take_zero, List.prod_append, List.prod_cons, List.prod_nil, mul_one]
      rw [pad_prod (by simp; omega), pad_prod (by simp; omega)]
      conv_rhs => rw [← List.take_append_drop p.1.length ws, List.prod_append]
      ring
    rwa [h2] at h1)
  exact ⟨this.inv, fun x => by rw [this.val, yields_sumD hr (zsOf_mem hp) hok hf hL]⟩

theorem split_fn {r : SRule K} (hr : Safe r) {p} (hp : p ∈ splits r.body) :
    FnOk p.2.1 ∧ (∀ z ∈ p.1, FnOk z) ∧ ∀ z ∈ p.2.2, FnOk z := by
  have := safe_fn hr
  rw [mem_splits hp] at this
  exact ⟨this _ (by simp), fun z hz => this z (by simp [hz]), fun z hz => this z (by simp [hz])⟩

/-- one pass of the inner loop of `seminaive_update` -/
theorem semi_adds {g : Cfg K} (hd : ∀ c, g.dead c = true → c = 0) {f : Nat} {old new d : Dict Tm K} (ho : OkD old) (hn : OkD new) (hdd : OkD d)
    {r : SRule K} (hr : Safe r) {p} (hp : p ∈ splits r.body) {s h' s'}
    (e : lookupVals f id ⟨d, false⟩ p.2.1 (fun b => getItem f id ⟨new, true⟩ p.1 fun L =>
      getItem f id ⟨old, true⟩ p.2.2 fun R => setItem g f r (L ++ [b] ++ R)) noHeap s = some (h', s', .done)) :
    AddsD s s' (fun x => ∑ᶠ θ, zAt r (zsOf old new d p) x θ) := by
  obtain ⟨f1, f2, f3⟩ := split_fn hr hp
  obtain ⟨L1, hL1, hr1⟩ := lookup_spec (hdd.src false) f1 (fun b => pair_restores fun _ _ => setItem_restores) good_noHeap e
  set inner : List K → Body (Dict Tm K) := fun a => getItem f id ⟨new, true⟩ p.1 fun L =>
      getItem f id ⟨old, true⟩ p.2.2 fun R => setItem g f r (L ++ a ++ R) with hin
  have hr1' : RunCalls inner (L1.map fun p => ([p.1], p.2)) s s' := Solver.RunCalls.map (k := inner) (g := fun b => [b]) hr1
  obtain ⟨L, hL, hrun⟩ := yields_bind (zs' := p.1.map (fun z => ((⟨new, true⟩ : Src K), z)) ++ p.2.2.map fun z => ((⟨old, true⟩ : Src K), z))
    (k := fun a ws => setItem g f r (pad id p.1 (ws.take p.1.length) ++ a ++ pad id p.2.2 (ws.drop p.1.length))) (by
      intro a h1 s s1 g1 e1
      exact pair_spec (hn.src true) (ho.src true) f2 f3 (fun _ _ => setItem_restores) g1 e1) _ s s' hL1.list hr1'
  exact split_adds hd ho hn hdd hr hp hL hrun

theorem foldChart_value {dead : K → Bool} (hd : ∀ c, dead c = true → c = 0) {l : List (Tm × K)} (hl : ∀ e ∈ l, Ground e.1) :
    OkD (foldChart dead l) ∧ ∀ x, value (foldChart dead l) x = dataAt l x := by
  have key : ∀ (l : List (Tm × K)) (q : Dict Tm K), (∀ e ∈ l, Ground e.1) →
      AddsD q (l.foldl (fun q e => addTo dead q e.1 e.2) q) (fun x => dataAt l x) := by
    intro l
    induction l with
    | nil => intro q _; simpa [dataAt] using AddsD.refl q
    | cons e l ih =>
      intro q hl
      have h1 := addTo_adds hd (q := q) (c := e.2) (hl e (by simp))
      have h2 := ih (addTo dead q e.1 e.2) fun e he => hl e (by simp [he])
      simpa [dataAt] using h1.trans h2
  have := key l [] hl
  exact ⟨this.inv OkD.nil, fun x => by unfold foldChart; rw [this.val]; simp [value]⟩

theorem OkD.entries {d : Dict Tm K} (h : OkD d) : ∀ e ∈ d, Ground e.1 := fun e he => h.ground _ (List.mem_map.2 ⟨e, he, rfl⟩)

/-- one round of semi-naive evaluation -/
theorem semiUpdate_value {g : Cfg K} (hd : ∀ c, g.dead c = true → c = 0) (hr : ∀ r ∈ g.rules, Safe r) {f : Nat} {old d new q : Dict Tm K}
    (ho : OkD old) (hdd : OkD d) (e : semiUpdate g f old d = some (new, q, .done)) :
    OkD new ∧ OkD q ∧ (∀ x, value new x = value old x + value d x) ∧
      ∀ x, rhs g.rules (value new) x = rhs g.rules (value old) x + value q x := by
  unfold semiUpdate at e
  simp only at e
  have hg : ∀ e ∈ old ++ d, Ground e.1 := by
    intro e he
    rcases List.mem_append.1 he with he | he
    · exact ho.entries e he
    · exact hdd.entries e he
  obtain ⟨hn, hv⟩ := foldChart_value hd hg
  have hv : ∀ x, value (foldChart g.dead (old ++ d)) x = value old x + value d x := fun x => by
    rw [hv, Solver.dataAt_append, Solver.dataAt_dict ho.wf, Solver.dataAt_dict hdd.wf]
  set nw := foldChart g.dead (old ++ d) with hnw
  split at e
  · simp at e
  · rename_i h' q' e'
    simp only [Option.some.injEq, Prod.mk.injEq, and_true] at e
    obtain ⟨rfl, rfl⟩ := e
    have hrest : ∀ (r : SRule K) (p : List (BLit K) × BLit K × List (BLit K)), Restores (lookupVals f id ⟨d, false⟩ p.2.1 fun b =>
        getItem f id ⟨nw, true⟩ p.1 fun L => getItem f id ⟨old, true⟩ p.2.2 fun R => setItem g f r (L ++ [b] ++ R)) :=
      fun r p => lookupVals_restores fun b => pair_restores fun _ _ => setItem_restores
    have := forEach_addsD (δ := fun r x => ((splits r.body).map fun p => ∑ᶠ θ, zAt r (zsOf old nw d p) x θ).sum)
      (fun r => forEach_restores (hrest r) _)
      (fun r hrm s s' e => forEach_addsD (hrest r) (fun p hp s s' e => semi_adds hd ho hn hdd (hr r hrm) hp e) e) e'
    have hq' := this.inv OkD.nil
    obtain ⟨hq, hqv⟩ := foldChart_value hd hq'.entries
    refine ⟨hn, hq, hv, fun x => ?_⟩
    rw [hqv, Solver.dataAt_dict hq'.wf, this.val]
    simp only [value, Dict.get_nil, Option.getD_none, zero_add]
    unfold rhs
    rw [← List.sum_map_add]
    congr 1
    exact List.map_congr_left fun r hrm => contrib_split hv (hr r hrm) x
  · rename_i hne e'
    simp only [Option.some.injEq, Prod.mk.injEq] at e
    exact (hne e.2.2).elim

/-! ### The agenda -/

theorem value_erase {d : Dict Tm K} (hd : OkD d) {i : Nat} {u : Tm} {Δ : K} (e : d[i]? = some (u, Δ)) :
    OkD (d.eraseIdx i) ∧ Ground u ∧ ∀ x, value d x = value (d.eraseIdx i) x + if u = x then Δ else 0 := by
  obtain ⟨hi, e⟩ := List.getElem?_eq_some_iff.1 e
  have hs : (d.eraseIdx i).Sublist d := List.eraseIdx_sublist ..
  have hw : Dict.WF (d.eraseIdx i) := by
    have := hd.wf
    unfold Dict.WF Dict.keys at this ⊢
    exact this.sublist (hs.map _)
  have ho : OkD (d.eraseIdx i) := ⟨hw, fun k hk => hd.ground k (by
    obtain ⟨p, hp, rfl⟩ := List.mem_map.1 hk; exact List.mem_map.2 ⟨p, hs.subset hp, rfl⟩)⟩
  refine ⟨ho, hd.entries (u, Δ) (e ▸ List.getElem_mem hi), fun x => ?_⟩
  have hp : (d[i] :: d.eraseIdx i).Perm d := List.getElem_cons_eraseIdx_perm hi
  rw [← Solver.dataAt_dict hd.wf, ← Solver.dataAt_dict ho.wf]
  have : dataAt d x = dataAt (d[i] :: d.eraseIdx i) x := by
    unfold dataAt
    exact ((hp.map _).sum_eq).symm
  rw [this, e]
  simp only [dataAt, List.map_cons, List.sum_cons]
  rw [add_comm]

/-- one pass of the inner loop of `agenda` -/
theorem drive_adds {g : Cfg K} (hd : ∀ c, g.dead c = true → c = 0) {f : Nat} {old new : Dict Tm K} (ho : OkD old) (hn : OkD new)
    {u : Tm} {Δ : K} (hu : Ground u) {r : SRule K} (hr : Safe r) {p : List (BLit K) × BLit K × List (BLit K)} (hp : p ∈ splits r.body) {t : Tm} (ht : p.2.1 = .sub t) {s h' s'}
    (e : unifyF f u t (getItem f id ⟨new, true⟩ p.1 fun L =>
      getItem f id ⟨old, true⟩ p.2.2 fun R => setItem g f r (L ++ [Δ] ++ R)) noHeap s = some (h', s', .done)) :
    AddsD s s' (fun x => ∑ᶠ θ, zAt r (zsOf old new [(u, Δ)] p) x θ) := by
  obtain ⟨f1, f2, f3⟩ := split_fn hr hp
  have hdd : OkD ([(u, Δ)] : Dict Tm K) := ⟨by simp [Dict.WF, Dict.keys], by simpa [Dict.keys] using hu⟩
  obtain ⟨hh, hu2⟩ := unify_done good_noHeap (pair_restores fun _ _ => setItem_restores) e
  set inner : List K → Body (Dict Tm K) := fun a => getItem f id ⟨new, true⟩ p.1 fun L =>
      getItem f id ⟨old, true⟩ p.2.2 fun R => setItem g f r (L ++ a ++ R) with hin
  have hkey : ∃ L1, Yields1 (K := K) id noHeap (⟨[(u, Δ)], false⟩, p.2.1) L1 ∧ RunCalls (fun b => inner [b]) L1 s s' := by
    rw [ht]
    rcases hu2 with ⟨hf, rfl⟩ | ⟨h1, g1, g2, e⟩
    · refine ⟨[], ⟨by simp, by simp, ?_, by simp⟩, .nil _⟩
      rintro τ b hτ hmem
      simp only [Sat1, List.mem_singleton, Prod.mk.injEq] at hmem
      exact absurd (by rw [hmem.1, Chart.sub_ground hu]) (hf τ hτ)
    · refine ⟨[(Δ, h1)], ⟨by simp [g1], ?_, ?_, by simp⟩, .cons e (.nil _)⟩
      · rintro q hq τ hτ
        simp only [List.mem_singleton] at hq; subst hq
        refine ⟨((g2 τ).1 hτ).1, ?_⟩
        have := ((g2 τ).1 hτ).2
        rw [Chart.sub_ground hu] at this
        simp [Sat1, this]
      · rintro τ b hτ hmem
        simp only [Sat1, List.mem_singleton, Prod.mk.injEq] at hmem
        exact ⟨(Δ, h1), by simp, (g2 τ).2 ⟨hτ, by rw [hmem.1, Chart.sub_ground hu]⟩, hmem.2.symm⟩
  obtain ⟨L1, hL1, hr1⟩ := hkey
  have hr1' : RunCalls inner (L1.map fun p => ([p.1], p.2)) s s' := Solver.RunCalls.map (k := inner) (g := fun b => [b]) hr1
  obtain ⟨L, hL, hrun⟩ := yields_bind (zs' := p.1.map (fun z => ((⟨new, true⟩ : Src K), z)) ++ p.2.2.map fun z => ((⟨old, true⟩ : Src K), z))
    (k := fun a ws => setItem g f r (pad id p.1 (ws.take p.1.length) ++ a ++ pad id p.2.2 (ws.drop p.1.length))) (by
      intro a h1 s s1 g1 e1
      exact pair_spec (hn.src true) (ho.src true) f2 f3 (fun _ _ => setItem_restores) g1 e1) _ s s' hL1.list hr1'
  exact split_adds hd ho hn hdd hr hp hL hrun

theorem zAt_const {r : SRule K} {old new d : Dict Tm K} {p : List (BLit K) × BLit K × List (BLit K)} (h : ∀ t, p.2.1 ≠ .sub t) (x : Tm) :
    (∑ᶠ θ, zAt r (zsOf old new d p) x θ) = 0 := by
  rw [← finsum_zero (α := Nat → Tm)]
  refine finsum_congr fun θ => ?_
  unfold zAt
  split
  · rw [zsOf_prod]
    have : srcVal ⟨d, false⟩ θ p.2.1 = 0 := by
      cases hz : p.2.1 with
      | sub t => exact absurd hz (h t)
      | val k => simp [srcVal]
      | eq x y => simp [srcVal]
      | cmp o x y => simp [srcVal]
    rw [this]; simp
  · rfl

theorem agDrive_adds {g : Cfg K} (hd : ∀ c, g.dead c = true → c = 0) (hr : ∀ r ∈ g.rules, Safe r) {f : Nat} {old new : Dict Tm K} (ho : OkD old)
    (hn : OkD new) {u : Tm} {Δ : K} (hu : Ground u) {s h' s'} (e : agDrive g f old new u Δ noHeap s = some (h', s', .done)) :
    AddsD s s' (fun x => (g.rules.map fun r => ((splits r.body).map fun p => ∑ᶠ θ, zAt r (zsOf old new [(u, Δ)] p) x θ).sum).sum) := by
  unfold agDrive at e
  have hrest : ∀ (r : SRule K) (p : List (BLit K) × BLit K × List (BLit K)), Restores (fun h q => match p.2.1 with
    | .sub t => unifyF f u t (getItem f id ⟨new, true⟩ p.1 fun L =>
        getItem f id ⟨old, true⟩ p.2.2 fun R => setItem g f r (L ++ [Δ] ++ R)) h q
    | _ => some (h, q, .done)) := by
    intro r p h q h' q' sig e
    simp only at e
    split at e
    · exact C03_no_trace f _ _ (pair_restores fun _ _ => setItem_restores) _ _ _ _ _ e
    · simp only [Option.some.injEq, Prod.mk.injEq] at e; exact e.1.symm
  refine forEach_addsD (δ := fun r x => ((splits r.body).map fun p => ∑ᶠ θ, zAt r (zsOf old new [(u, Δ)] p) x θ).sum)
    (fun r => forEach_restores (hrest r) _) ?_ e
  intro r hrm s s' e
  refine forEach_addsD (hrest r) ?_ e
  intro p hp s s' e
  split at e
  · rename_i t ht
    exact drive_adds hd ho hn hu (hr r hrm) hp ht e
  · rename_i hne
    simp only [Option.some.injEq, Prod.mk.injEq, and_true] at e
    obtain rfl := e.2
    have h0 : (fun x => ∑ᶠ θ, zAt r (zsOf old new [(u, Δ)] p) x θ) = fun _ => 0 := by
      funext x; exact zAt_const (fun t ht => hne t ht) x
    rw [h0]
    exact AddsD.refl _

/-- the invariant of `agenda` with exact comparison -/
structure AgInv (g : Cfg K) (st : AgSt K) : Prop where
  old : OkD st.old
  new : OkD st.new
  change : OkD st.change
  same : ∀ x, value st.old x = value st.new x
  eqn : ∀ x, value st.new x + value st.change x = rhs g.rules (value st.new) x

theorem live_value {dead : K → Bool} (hd : ∀ c, dead c = true → c = 0) {d : Dict Tm K} {x : Tm} : (live dead d x).getD 0 = value d x := by
  unfold live value
  cases hx : Dict.get d x with
  | none => rfl
  | some c =>
    simp only [Option.getD_some]
    split
    · rename_i h; simp [hd c h]
    · rfl

theorem contrib_congr {r : SRule K} {v w : Tm → K} (h : ∀ x, v x = w x) (x : Tm) : contrib r v x = contrib r w x := by
  have : v = w := funext h
  rw [this]

theorem rhs_congr {rules : List (SRule K)} {v w : Tm → K} (h : ∀ x, v x = w x) (x : Tm) : rhs rules v x = rhs rules w x := by
  have : v = w := funext h
  rw [this]

theorem ag_init {g : Cfg K} (hd : ∀ c, g.dead c = true → c = 0) (hr : ∀ r ∈ g.rules, Safe r) {st : AgSt K} (h : AgInit g st) : AgInv g st := by
  obtain ⟨f, c, e, rfl⟩ := h
  obtain ⟨hc, hv⟩ := step_value hd hr OkD.nil e
  exact ⟨OkD.nil, OkD.nil, hc, fun _ => rfl, fun x => by rw [hv]; simp [value]⟩

theorem ag_step {g : Cfg K} (hd : ∀ c, g.dead c = true → c = 0) (hcl : ∀ a b, g.close a b = true → a = b) (hr : ∀ r ∈ g.rules, Safe r)
    {st st' : AgSt K} (hi : AgInv g st) (h : AgStep g st st') : AgInv g st' := by
  obtain ⟨f, i, e⟩ := h
  unfold agStep at e
  split at e
  · simp at e
  · rename_i u Δ hget
    obtain ⟨hch, hu, hcv⟩ := value_erase hi.change hget
    have hadd := addTo_adds hd (q := st.new) (c := Δ) hu
    have hn := hadd.inv hi.new
    simp only at e
    set nw := addTo g.dead st.new u Δ with hnw
    have hvn : ∀ x, value nw x = value st.new x + if u = x then Δ else 0 := hadd.val
    split at e
    · rename_i hun
      simp only [Option.some.injEq, Prod.mk.injEq, and_true] at e
      subst e
      have hsame : ∀ x, value nw x = value st.new x := by
        intro x
        by_cases hx : u = x
        · subst hx
          rw [← live_value hd (d := nw), ← live_value hd (d := st.new)]
          generalize live g.dead st.new u = a at hun
          generalize live g.dead nw u = b at hun
          unfold unchanged at hun
          split at hun
          · rfl
          · rw [hcl _ _ hun]
          · simp at hun
        · rw [hvn]; simp [hx]
      refine ⟨hi.old, hn, hch, fun x => by rw [hsame]; exact hi.same x, fun x => ?_⟩
      simp only
      rw [rhs_congr hsame, ← hi.eqn, hcv x, hvn]
      ring
    · split at e
      · simp at e
      · rename_i ch' ed
        simp only [Option.some.injEq, Prod.mk.injEq, and_true] at e
        subst e
        have hda := agDrive_adds hd hr hi.old hn hu ed
        have hao := addTo_adds hd (q := st.old) (c := Δ) hu
        refine ⟨hao.inv hi.old, hn, hda.inv hch, fun x => by simp only; rw [hao.val, hvn, hi.same], fun x => ?_⟩
        simp only
        have hv : ∀ x, value nw x = value st.old x + value ([(u, Δ)] : Dict Tm K) x := by
          intro x
          rw [hvn, hi.same]
          congr 1
          simp only [value, Dict.get]
          split <;> simp_all
        have hsplit : rhs g.rules (value nw) x = rhs g.rules (value st.old) x +
            (g.rules.map fun r => ((splits r.body).map fun p => ∑ᶠ θ, zAt r (zsOf st.old nw [(u, Δ)] p) x θ).sum).sum := by
          unfold rhs
          rw [← List.sum_map_add]
          congr 1
          exact List.map_congr_left fun r hrm => contrib_split hv (hr r hrm) x
        rw [hsplit, hda.val, rhs_congr hi.same, ← hi.eqn, hcv x, hvn]
        ring
      · rename_i hne _
        simp only [Option.some.injEq, Prod.mk.injEq] at e
        exact (hne e.2).elim

/-- states reached by `agenda` -/
inductive AgRun (g : Cfg K) : AgSt K → Prop
  | init {st} : AgInit g st → AgRun g st
  | step {st st'} : AgRun g st → AgStep g st st' → AgRun g st'

theorem ag_run {g : Cfg K} (hd : ∀ c, g.dead c = true → c = 0) (hcl : ∀ a b, g.close a b = true → a = b) (hr : ∀ r ∈ g.rules, Safe r)
    {st : AgSt K} (h : AgRun g st) : AgInv g st := by
  induction h with
  | init h => exact ag_init hd hr h
  | step _ h ih => exact ag_step hd hcl hr ih h

/-! ### Property C26: rounds of forward chaining -/

/-- the valuation after `t` rounds from the empty one -/
noncomputable def iter (rules : List (SRule K)) : Nat → Tm → K
  | 0 => fun _ => 0
  | t + 1 => fun x => rhs rules (iter rules t) x

theorem iter_stable {rules : List (SRule K)} {t : Nat} (h : ∀ x, iter rules (t + 1) x = iter rules t x) :
    ∀ n, t ≤ n → ∀ x, iter rules n x = iter rules t x := by
  intro n hn
  induction n, hn using Nat.le_induction with
  | base => intro x; rfl
  | succ n hn ih =>
    intro x
    show rhs rules (iter rules n) x = _
    rw [rhs_congr ih, ← h]
    rfl

theorem fc_value {g : Cfg K} (hd : ∀ c, g.dead c = true → c = 0) (hs : ∀ a b, g.same a b = true → ∀ x, value a x = value b x)
    (hr : ∀ r ∈ g.rules, Safe r) {f : Nat} : ∀ n t old new q, OkD old → (∀ x, value old x = iter g.rules t x) →
      (∀ d, new = some d → d = old) → fcF g f n old new = some (q, .done) → OkD q ∧ ∀ x, value q x = iter g.rules (t + n) x := by
  intro n
  induction n with
  | zero =>
    intro t old new q ho hv hnew e
    cases new with
    | none => simp [fcF] at e
    | some d =>
      have := hnew d rfl
      subst this
      simp only [fcF, Option.some.injEq, Prod.mk.injEq, and_true] at e
      subst e
      exact ⟨ho, hv⟩
  | succ n ih =>
    intro t old new q ho hv hnew e
    simp only [fcF] at e
    split at e
    · simp at e
    · rename_i d ed
      obtain ⟨hdd, hdv⟩ := step_value hd hr ho ed
      have hdv : ∀ x, value d x = iter g.rules (t + 1) x := fun x => by rw [hdv, rhs_congr hv]; rfl
      split at e
      · rename_i hsame
        simp only [Option.some.injEq, Prod.mk.injEq, and_true] at e
        subst e
        refine ⟨hdd, fun x => ?_⟩
        have hst : ∀ x, iter g.rules (t + 1) x = iter g.rules t x := fun x => by rw [← hdv, hs _ _ hsame, hv]
        rw [hdv, hst, iter_stable hst (t + (n + 1)) (by omega)]
      · have := ih (t + 1) d (some d) q hdd hdv (by rintro _ h; exact (Option.some.inj h).symm) e
        rwa [show t + 1 + n = t + (n + 1) by omega] at this
    · rename_i r hne _
      simp only [Option.some.injEq] at e
      exact (hne _ e).elim

/-- `fc(max_iter=n)`, when it ends, returns the `n`-th iterate of the step operator -- also when it stopped
earlier because nothing changed. -/
theorem C26_rounds {g : Cfg K} (hd : ∀ c, g.dead c = true → c = 0) (hs : ∀ a b, g.same a b = true → ∀ x, value a x = value b x)
    (hr : ∀ r ∈ g.rules, Safe r) {f n : Nat} {q : Dict Tm K} (e : fcF g f n [] none = some (q, .done)) (x : Tm) :
    value q x = iter g.rules n x := by
  have := (fc_value hd hs hr n 0 [] none q OkD.nil (by simp [value, iter]) (by simp) e).2 x
  rwa [Nat.zero_add] at this

/-- without rounds the local variable `new` is unbound -/
theorem C26_no_rounds (g : Cfg K) (f : Nat) : fcF g f 0 [] none = some ([], unboundLocal) := rfl

/-! ### Property C27: semi-naive evaluation -/

theorem semi_value {g : Cfg K} (hd : ∀ c, g.dead c = true → c = 0) (hs : ∀ a b, g.same a b = true → ∀ x, value a x = value b x)
    (hr : ∀ r ∈ g.rules, Safe r) {f : Nat} : ∀ T t m d q, OkD m → OkD d → (∀ x, value m x = iter g.rules t x) →
      (∀ x, value m x + value d x = rhs g.rules (value m) x) → semiF g f T m d = some (q, .done) →
      ∀ x, value q x = iter g.rules (t + T) x := by
  intro T
  induction T with
  | zero =>
    intro t m d q _ _ hv _ e
    simp only [semiF, Option.some.injEq, Prod.mk.injEq, and_true] at e
    subst e
    exact hv
  | succ T ih =>
    intro t m d q hm hdd hv heq e
    simp only [semiF] at e
    split at e
    · simp at e
    · rename_i m' d' eu
      obtain ⟨hm', hd', h1, h2⟩ := semiUpdate_value hd hr hm hdd eu
      have hv' : ∀ x, value m' x = iter g.rules (t + 1) x := fun x => by
        rw [h1, heq, rhs_congr hv]; rfl
      have heq' : ∀ x, value m' x + value d' x = rhs g.rules (value m') x := fun x => by
        rw [h2, h1, heq]
      split at e
      · rename_i hstop
        simp only [Option.some.injEq, Prod.mk.injEq, and_true] at e
        subst e
        rw [Bool.or_eq_true] at hstop
        have hst : ∀ n, t + 1 ≤ n → ∀ x, iter g.rules n x = iter g.rules (t + 1) x := by
          rcases hstop with he | he
          · refine iter_stable fun x => ?_
            show rhs g.rules (iter g.rules (t + 1)) x = _
            rw [← rhs_congr hv', ← heq', ← hv', List.isEmpty_iff.1 he]
            simp [value]
          · have h0 : ∀ x, iter g.rules (t + 1) x = iter g.rules t x := fun x => by rw [← hv', ← hv, hs _ _ he]
            intro n hn x
            rw [iter_stable h0 n (by omega), h0]
        intro x
        rw [hv', hst (t + (T + 1)) (by omega)]
      · have := ih (t + 1) m' d' q hm' hd' hv' heq' e
        rwa [show t + 1 + T = t + (T + 1) by omega] at this
    · rename_i hne _
      simp only [Option.some.injEq, Prod.mk.injEq] at e
      exact (hne e.2).elim

/-- `seminaive(T)`, when it ends, returns the `T`-th iterate of the step operator. -/
theorem C27_rounds {g : Cfg K} (hd : ∀ c, g.dead c = true → c = 0) (hs : ∀ a b, g.same a b = true → ∀ x, value a x = value b x)
    (hr : ∀ r ∈ g.rules, Safe r) {f T : Nat} {q : Dict Tm K} (e : seminaive g f T = some (q, .done)) (x : Tm) :
    value q x = iter g.rules T x := by
  unfold seminaive at e
  split at e
  · simp at e
  · rename_i d ed
    obtain ⟨hd', hv⟩ := step_value hd hr OkD.nil ed
    have := semi_value hd hs hr T 0 [] d q OkD.nil hd' (by simp [value, iter]) (fun x => by rw [hv]; simp [value]) e x
    rwa [Nat.zero_add] at this
  · rename_i r hne _
    simp only [Option.some.injEq] at e
    exact (hne _ e).elim

/-- Semi-naive and naive evaluation with the same number of rounds give every item the same value. -/
theorem C27_equal {g : Cfg K} (hd : ∀ c, g.dead c = true → c = 0) (hs : ∀ a b, g.same a b = true → ∀ x, value a x = value b x)
    (hr : ∀ r ∈ g.rules, Safe r) {f f' T : Nat} {q q' : Dict Tm K} (e : seminaive g f T = some (q, .done))
    (e' : fcF g f' T [] none = some (q', .done)) (x : Tm) : value q x = value q' x := by
  rw [C27_rounds hd hs hr e, C26_rounds hd hs hr e']

/-! ### Property C28: the agenda -/

/-- When the change buffer of `agenda` is empty, its chart is a fixpoint of the step operator, in whatever
order the buffer was emptied. -/
theorem C28_fixpoint {g : Cfg K} (hd : ∀ c, g.dead c = true → c = 0) (hcl : ∀ a b, g.close a b = true → a = b)
    (hr : ∀ r ∈ g.rules, Safe r) {st : AgSt K} (h : AgRun g st) (hq : st.change = []) (x : Tm) :
    value st.new x = rhs g.rules (value st.new) x := by
  have := (ag_run hd hcl hr h).eqn x
  rw [hq] at this
  simpa [value] using this

/-- At every moment the chart plus the buffered changes is one application of the step operator to the chart. -/
theorem C28_invariant {g : Cfg K} (hd : ∀ c, g.dead c = true → c = 0) (hcl : ∀ a b, g.close a b = true → a = b)
    (hr : ∀ r ∈ g.rules, Safe r) {st : AgSt K} (h : AgRun g st) (x : Tm) :
    value st.new x + value st.change x = rhs g.rules (value st.new) x := (ag_run hd hcl hr h).eqn x

section Ordered
variable [PartialOrder K] [IsOrderedRing K]

/-- a valuation closed under all rules -/
def Closed (rules : List (SRule K)) (v : Tm → K) : Prop :=
  ∀ x, ∀ F : SRule K → Finset (Nat → Tm), (rules.map fun r => ∑ θ ∈ F r, Solver.instAt r v x θ).sum ≤ v x

theorem rhs_below (h0 : ∀ k : K, 0 ≤ k) {rules : List (SRule K)} (hr : ∀ r ∈ rules, Safe r) {chart : Dict Tm K} {v : Tm → K}
    (hv : Closed rules v) (h : ∀ x, value chart x ≤ v x) (x : Tm) : rhs rules (value chart) x ≤ v x := by
  classical
  let F : SRule K → Finset (Nat → Tm) := fun r => if hr : Safe r then (Solver.C23_finite hr chart x).toFinset else ∅
  refine le_trans ?_ (hv x F)
  unfold rhs
  refine List.sum_le_sum fun r hrm => ?_
  have hF : F r = (Solver.C23_finite (hr r hrm) chart x).toFinset := by simp only [F, dif_pos (hr r hrm)]
  unfold contrib
  rw [finsum_eq_sum_of_support_subset (s := F r) _ (by rw [hF]; simp)]
  exact Finset.sum_le_sum fun θ _ => Solver.instAt_mono h0 h r x θ

theorem fixpoint_closed (h0 : ∀ k : K, 0 ≤ k) {rules : List (SRule K)} (hr : ∀ r ∈ rules, Safe r) {chart : Dict Tm K}
    (h : ∀ x, value chart x = rhs rules (value chart) x) : Closed rules (value chart) := by
  intro x F
  have := Solver.presol_of_fixpoint h0 hr (kept := fun _ => True) (data := fun _ => 0) (chart := chart) (fun x _ => by rw [zero_add]; exact h x) x trivial F
  simpa using this

/-- In an ordered semiring with `0` as least element the chart of `agenda` never exceeds a closed valuation, so
the chart it ends with is the least solution. -/
theorem C28_least (h0 : ∀ k : K, 0 ≤ k) {g : Cfg K} (hd : ∀ c, g.dead c = true → c = 0) (hcl : ∀ a b, g.close a b = true → a = b)
    (hr : ∀ r ∈ g.rules, Safe r) {st : AgSt K} (h : AgRun g st) :
    (∀ v, Closed g.rules v → ∀ x, value st.new x ≤ v x) ∧ (st.change = [] → Closed g.rules (value st.new)) := by
  refine ⟨fun v hv => ?_, fun hq => fixpoint_closed h0 hr (C28_fixpoint hd hcl hr h hq)⟩
  induction h with
  | init h =>
    obtain ⟨f, c, e, rfl⟩ := h
    intro x
    simpa [value] using h0 _
  | @step st st' hrun hst ih =>
    have hi := ag_run hd hcl hr hrun
    obtain ⟨f, i, e⟩ := hst
    intro x
    have key : ∀ u Δ, st.change[i]? = some (u, Δ) → value (addTo g.dead st.new u Δ) x ≤ v x := by
      intro u Δ hget
      obtain ⟨_, hu, hcv⟩ := value_erase hi.change hget
      rw [(addTo_adds hd (q := st.new) (c := Δ) hu).val]
      refine le_trans ?_ (rhs_below h0 hr hv ih x)
      rw [← hi.eqn x, hcv x, add_comm (value (st.change.eraseIdx i) x)]
      rw [← add_assoc]
      exact le_add_of_nonneg_right (h0 _)
    unfold agStep at e
    split at e
    · simp at e
    · rename_i u Δ hget
      have := key u Δ hget
      simp only at e
      split at e
      · simp only [Option.some.injEq, Prod.mk.injEq, and_true] at e
        subst e; exact this
      · split at e
        · simp at e
        · simp only [Option.some.injEq, Prod.mk.injEq, and_true] at e
          subst e; exact this
        · simp only [Option.some.injEq, Prod.mk.injEq] at e
          obtain ⟨rfl, _⟩ := e; exact this

/-- When both end, `agenda` and `fc` agree. -/
theorem C28_forward_chaining (h0 : ∀ k : K, 0 ≤ k) {g : Cfg K} (hd : ∀ c, g.dead c = true → c = 0) (hcl : ∀ a b, g.close a b = true → a = b)
    (hs : ∀ a b, g.same a b = true → ∀ x, value a x = value b x) (hr : ∀ r ∈ g.rules, Safe r) {st : AgSt K} (h : AgRun g st)
    (hq : st.change = []) {f n : Nat} {q : Dict Tm K} (e : fcF g f n [] none = some (q, .done))
    (hfix : ∀ x, iter g.rules (n + 1) x = iter g.rules n x) (x : Tm) : value st.new x = value q x := by
  have hqv : ∀ x, value q x = iter g.rules n x := C26_rounds hd hs hr e
  have hfq : ∀ x, value q x = rhs g.rules (value q) x := fun x => by
    rw [rhs_congr hqv]; exact (hqv x).trans (hfix x).symm
  refine le_antisymm ((C28_least h0 hd hcl hr h).1 _ (fixpoint_closed h0 hr hfq) x) ?_
  have hcl' := fixpoint_closed h0 hr (C28_fixpoint hd hcl hr h hq)
  -- iterates stay below every closed chart
  have : ∀ n d, OkD d → (∀ x, value d x ≤ value st.new x) → ∀ new q, (∀ d', new = some d' → d' = d) →
      fcF g f n d new = some (q, .done) → ∀ x, value q x ≤ value st.new x := by
    intro n
    induction n with
    | zero =>
      intro d _ hle new q hnew e
      cases new with
      | none => simp [fcF] at e
      | some d' =>
        have := hnew d' rfl
        subst this
        simp only [fcF, Option.some.injEq, Prod.mk.injEq, and_true] at e
        subst e; exact hle
    | succ n ih =>
      intro d hok hle new q hnew e
      simp only [fcF] at e
      split at e
      · simp at e
      · rename_i d' ed
        obtain ⟨hdd, hdv⟩ := step_value hd hr hok ed
        have hle' : ∀ x, value d' x ≤ value st.new x := fun x => by rw [hdv]; exact rhs_below h0 hr hcl' hle x
        split at e
        · simp only [Option.some.injEq, Prod.mk.injEq, and_true] at e
          subst e; exact hle'
        · exact ih d' hdd hle' (some d') q (by rintro _ h; exact (Option.some.inj h).symm) e
      · rename_i r hne _
        simp only [Option.some.injEq] at e
        exact (hne _ e).elim
  exact this n [] OkD.nil (fun x => by simpa [value] using h0 _) none q (by simp) e x

end Ordered

/-! ### Evaluation ends -/

/-- a rule whose body can be evaluated from left to right: comparisons are reached with bound arguments and the
head is bound in the end -/
structure Ordered (r : SRule K) : Prop where
  body : Moded ∅ r.body
  head : vars r.head ⊆ boundBy ∅ r.body

theorem setItem_ends {g : Cfg K} {r : SRule K} {P : List K} {h : Heap} (hg : Good h) (hh : Ground (r.head.sub (res h))) :
    Ends (fun f => setItem g f r P) h := by
  obtain ⟨f1, e1⟩ := hg.deref (.app (r.body.flatMap Solver.litTerms))
  obtain ⟨f2, e2⟩ := hg.deref r.head
  obtain ⟨N, hN⟩ := groundF_evt _ _ _ e2
  have hgr : vars (r.head.sub (res h)) = ∅ := hh
  refine ⟨f1 + f2 + N, fun s => ⟨addTo g.dead s (r.head.sub (res h)) (P.foldl (· * ·) 1 *
    if vars ((Tm.app (r.body.flatMap Solver.litTerms)).sub (res h)) \ vars (r.head.sub (res h)) = ∅ then 1 else g.inf), fun f hf => ?_⟩⟩
  simp only [setItem, multiple]
  rw [deref_mono e1 (by omega : f1 ≤ f), deref_mono e2 (by omega : f2 ≤ f), hN f (by omega)]
  simp only [hgr, decide_true]

theorem step_ends {g : Cfg K} (hr : ∀ r ∈ g.rules, Safe r ∧ Ordered r) {chart : Dict Tm K} (hc : OkD chart) :
    ∃ N q, ∀ f ≥ N, stepF g f chart = some (q, .done) := by
  have : Ends (fun f => forEach g.rules (fun r => getItem f id ⟨chart, true⟩ r.body (setItem g f r))) noHeap := by
    refine forEach_ends fun r hrm => ?_
    refine getItem_ends (k := fun f => setItem g f r) (fun _ _ => setItem_restores) (hc.src true) (safe_fn (hr r hrm).1) good_noHeap
      (B := ∅) (by intro n hn; simp at hn) (hr r hrm).2.body fun vs h1 g1 _ hB => ?_
    exact setItem_ends g1 (hB.sub (hr r hrm).2.head)
  obtain ⟨N, hN⟩ := this
  obtain ⟨q, hq⟩ := hN []
  beta_reduce at hq
  exact ⟨N, q, fun f hf => by unfold stepF; rw [hq f hf]; rfl⟩

theorem fc_ends {g : Cfg K} (hd : ∀ c, g.dead c = true → c = 0) (hr : ∀ r ∈ g.rules, Safe r ∧ Ordered r) : ∀ n chart new, OkD chart →
    ∃ N q, ∀ f ≥ N, fcF g f (n + 1) chart new = some (q, .done) := by
  intro n
  induction n with
  | zero =>
    intro chart new hc
    obtain ⟨N, q, hN⟩ := step_ends hr hc
    refine ⟨N, q, fun f hf => ?_⟩
    simp only [fcF]
    rw [hN f hf]
    simp
  | succ n ih =>
    intro chart new hc
    obtain ⟨N, q, hN⟩ := step_ends hr hc
    obtain ⟨hq, _⟩ := step_value hd (fun r h => (hr r h).1) hc (hN N (le_refl _))
    obtain ⟨M, q', hM⟩ := ih q (some q) hq
    by_cases hs : g.same q chart = true
    · refine ⟨N, q, fun f hf => ?_⟩
      rw [fcF, hN f hf]; simp [hs]
    · refine ⟨N + M, q', fun f hf => ?_⟩
      rw [fcF, hN f (by omega)]; simp only [hs, if_false]
      exact hM f (by omega)

/-- Programs whose rules can be evaluated from left to right: `fc(max_iter=n)` ends for every `n ≥ 1` and returns
the `n`-th iterate. -/
theorem C26_total {g : Cfg K} (hd : ∀ c, g.dead c = true → c = 0) (hs : ∀ a b, g.same a b = true → ∀ x, value a x = value b x)
    (hr : ∀ r ∈ g.rules, Safe r ∧ Ordered r) (n : Nat) :
    ∃ N q, (∀ f ≥ N, fcF g f (n + 1) [] none = some (q, .done)) ∧ ∀ x, value q x = iter g.rules (n + 1) x := by
  obtain ⟨N, q, hN⟩ := fc_ends hd hr n [] none OkD.nil
  exact ⟨N, q, hN, C26_rounds hd hs (fun r h => (hr r h).1) (hN N (le_refl _))⟩

theorem split_ends {g : Cfg K} {old new d : Dict Tm K} (ho : OkD old) (hn : OkD new) (hdd : OkD d) {r : SRule K} (hr : Safe r) (hord : Ordered r)
    {p : List (BLit K) × BLit K × List (BLit K)} (hp : p ∈ splits r.body) :
    Ends (fun f => lookupVals f id ⟨d, false⟩ p.2.1 (fun b => getItem f id ⟨new, true⟩ p.1 fun L =>
      getItem f id ⟨old, true⟩ p.2.2 fun R => setItem g f r (L ++ [b] ++ R))) noHeap := by
  obtain ⟨f1, f2, f3⟩ := split_fn hr hp
  by_cases hsub : ∃ t, p.2.1 = .sub t
  · obtain ⟨t, ht⟩ := hsub
    have hb := hord.body
    have hh := hord.head
    rw [mem_splits hp, ht] at hb hh
    obtain ⟨m1, m2, m3⟩ := hb.front
    have := joinZ_ends (K := K) (emb := id) (k := fun f a => getItem f id ⟨new, true⟩ p.1 fun L =>
      getItem f id ⟨old, true⟩ p.2.2 fun R => setItem g f r (L ++ a ++ R)) (fun f a => pair_restores fun _ _ => setItem_restores)
      [((⟨d, false⟩ : Src K), p.2.1)] (by simp [hdd.src]) (by simpa using f1) [] noHeap ∅ good_noHeap (by intro n hn; simp at hn)
      (by simp [ht, Moded]) (by
        intro vs h1 g1 _ hB
        simp only [List.map_cons, List.map_nil, ht, boundBy] at hB
        refine getItem_ends (k := fun f L => getItem f id ⟨old, true⟩ p.2.2 fun R => setItem g f r (L ++ vs ++ R))
          (fun f L => getItem_restores fun _ => setItem_restores) (hn.src true) f2 g1 hB m1 ?_
        intro L h2 g2 _ hB2
        refine getItem_ends (k := fun f R => setItem g f r (L ++ vs ++ R)) (fun f L => setItem_restores) (ho.src true) f3 g2 hB2 m2 ?_
        intro R h3 g3 _ hB3
        exact setItem_ends g3 (hB3.sub (hh.trans m3)))
    exact this
  · refine ⟨0, fun s => ⟨s, fun f _ => ?_⟩⟩
    unfold lookupVals
    cases hz : p.2.1 with
    | sub t => exact absurd ⟨t, hz⟩ hsub
    | val k => simp
    | eq x y => simp
    | cmp o x y => simp

theorem semiUpdate_ends {g : Cfg K} (hd : ∀ c, g.dead c = true → c = 0) (hr : ∀ r ∈ g.rules, Safe r ∧ Ordered r) {old d : Dict Tm K} (ho : OkD old) (hdd : OkD d) :
    ∃ N m' d', ∀ f ≥ N, semiUpdate g f old d = some (m', d', .done) := by
  have hg : ∀ e ∈ old ++ d, Ground e.1 := by
    intro e he
    rcases List.mem_append.1 he with he | he
    · exact ho.entries e he
    · exact hdd.entries e he
  have hn := (foldChart_value hd hg).1
  have : Ends (fun f => forEach g.rules (fun r => forEach (splits r.body) fun p =>
      lookupVals f id ⟨d, false⟩ p.2.1 fun b =>
        getItem f id ⟨foldChart g.dead (old ++ d), true⟩ p.1 fun L =>
          getItem f id ⟨old, true⟩ p.2.2 fun R => setItem g f r (L ++ [b] ++ R))) noHeap :=
    forEach_ends fun r hrm => forEach_ends fun p hp => split_ends ho hn hdd (hr r hrm).1 (hr r hrm).2 hp
  obtain ⟨N, hN⟩ := this
  obtain ⟨q, hq⟩ := hN []
  beta_reduce at hq
  refine ⟨N, foldChart g.dead (old ++ d), foldChart g.dead q, fun f hf => ?_⟩
  unfold semiUpdate
  simp only
  rw [hq f hf]

theorem semi_ends {g : Cfg K} (hd : ∀ c, g.dead c = true → c = 0) (hr : ∀ r ∈ g.rules, Safe r ∧ Ordered r) : ∀ T m d, OkD m → OkD d →
    ∃ N q, ∀ f ≥ N, semiF g f T m d = some (q, .done) := by
  intro T
  induction T with
  | zero => intro m d _ _; exact ⟨0, m, fun f _ => rfl⟩
  | succ T ih =>
    intro m d hm hdd
    obtain ⟨N, m', d', hN⟩ := semiUpdate_ends hd hr hm hdd
    obtain ⟨h1, h2, _⟩ := semiUpdate_value hd (fun r h => (hr r h).1) hm hdd (hN N (le_refl _))
    obtain ⟨M, q', hM⟩ := ih m' d' h1 h2
    by_cases hs : (d'.isEmpty || g.same m m') = true
    · refine ⟨N, m', fun f hf => ?_⟩
      rw [semiF, hN f hf]; simp only [hs, if_true]
    · refine ⟨N + M, q', fun f hf => ?_⟩
      rw [semiF, hN f (by omega)]; simp only [hs]
      exact hM f (by omega)

/-- `seminaive(T)` ends for such programs and returns what `fc(max_iter=T)` returns. -/
theorem C27_total {g : Cfg K} (hd : ∀ c, g.dead c = true → c = 0) (hs : ∀ a b, g.same a b = true → ∀ x, value a x = value b x)
    (hr : ∀ r ∈ g.rules, Safe r ∧ Ordered r) (T : Nat) :
    ∃ N q, (∀ f ≥ N, seminaive g f T = some (q, .done)) ∧ ∀ x, value q x = iter g.rules T x := by
  obtain ⟨N, d, hN⟩ := step_ends hr OkD.nil
  obtain ⟨hdd, _⟩ := step_value hd (fun r h => (hr r h).1) OkD.nil (hN N (le_refl _))
  obtain ⟨M, q, hM⟩ := semi_ends hd hr T [] d OkD.nil hdd
  have : ∀ f ≥ N + M, seminaive g f T = some (q, .done) := fun f hf => by
    unfold seminaive
    rw [hN f (by omega)]
    exact hM f (by omega)
  exact ⟨N + M, q, this, C27_rounds hd hs (fun r h => (hr r h).1) (this _ (le_refl _))⟩

/-- An iteration of `agenda` on such a program always ends normally, whichever buffered rule is popped. -/
theorem C28_progress {g : Cfg K} (hd : ∀ c, g.dead c = true → c = 0) (hcl : ∀ a b, g.close a b = true → a = b)
    (hr : ∀ r ∈ g.rules, Safe r ∧ Ordered r) {st : AgSt K} (h : AgRun g st) {i : Nat} (hi : i < st.change.length) :
    ∃ f st', agStep g f i st = some (st', .done) := by
  have hinv := ag_run hd hcl (fun r h => (hr r h).1) h
  obtain ⟨u, Δ, hget⟩ : ∃ u Δ, st.change[i]? = some (u, Δ) := ⟨_, _, List.getElem?_eq_getElem hi⟩
  obtain ⟨_, hu, _⟩ := value_erase hinv.change hget
  have hn := (addTo_adds hd (q := st.new) (c := Δ) hu).inv hinv.new
  have : Ends (fun f => agDrive g f st.old (addTo g.dead st.new u Δ) u Δ) noHeap := by
    refine forEach_ends fun r hrm => forEach_ends fun p hp => ?_
    by_cases hsub : ∃ t, p.2.1 = .sub t
    · obtain ⟨t, ht⟩ := hsub
      obtain ⟨f1, f2, f3⟩ := split_fn (hr r hrm).1 hp
      have hb := (hr r hrm).2.body
      have hh := (hr r hrm).2.head
      rw [mem_splits hp, ht] at hb hh
      obtain ⟨m1, m2, m3⟩ := hb.front
      simp only [ht]
      refine unify_ends (k := fun f => getItem f id ⟨addTo g.dead st.new u Δ, true⟩ p.1 fun L =>
        getItem f id ⟨st.old, true⟩ p.2.2 fun R => setItem g f r (L ++ [Δ] ++ R)) (fun f => pair_restores fun _ _ => setItem_restores) good_noHeap ?_
      intro h1 g1 hr1
      have hxy := ((hr1 _).1 g1.respects_res).2
      rw [Chart.sub_ground hu] at hxy
      refine getItem_ends (k := fun f L => getItem f id ⟨st.old, true⟩ p.2.2 fun R => setItem g f r (L ++ [Δ] ++ R)) (B := ∅ ∪ vars t)
        (fun f L => getItem_restores fun _ => setItem_restores) (hn.src true) f2 g1 ?_ m1 ?_
      · intro n hn
        simp only [Finset.empty_union] at hn
        exact Solver.ground_of_mem (hxy ▸ hu) hn
      intro L h2 g2 _ hB2
      refine getItem_ends (k := fun f R => setItem g f r (L ++ [Δ] ++ R)) (fun f L => setItem_restores) (hinv.old.src true) f3 g2 hB2 m2 ?_
      intro R h3 g3 _ hB3
      exact setItem_ends g3 (hB3.sub (hh.trans m3))
    · refine ⟨0, fun s => ⟨s, fun f _ => ?_⟩⟩
      cases hz : p.2.1 with
      | sub t => exact absurd ⟨t, hz⟩ hsub
      | val k => simp
      | eq x y => simp
      | cmp o x y => simp
  obtain ⟨N, hN⟩ := this
  obtain ⟨q, hq⟩ := hN (st.change.eraseIdx i)
  beta_reduce at hq
  unfold agStep
  simp only [hget]
  refine ⟨N, ?_⟩
  split
  · exact ⟨_, rfl⟩
  · rw [hq N (le_refl _)]
    exact ⟨_, rfl⟩

section Examples

private def ct (s : String) : Tm := .con (.str s)
private def X : Tm := .var 0
private def Y : Tm := .var 1
private def Z : Tm := .var 2
private def edge (x y : Tm) : Tm := .app [ct "edge", x, y]
private def path (x y : Tm) : Tm := .app [ct "path", x, y]
private def goal : Tm := .app [ct "goal"]

/-- `edge(a,b) += 2.  edge(b,c) += 3.  edge(a,c) += 5.  path(X,Y) += edge(X,Y).  path(X,Z) += path(X,Y) * edge(Y,Z).
goal += path(a,Y) * path(a,Y) * (Y = c).`  -/
private def prog : List (SRule ℕ) :=
  [⟨edge (ct "a") (ct "b"), [.val 2]⟩, ⟨edge (ct "b") (ct "c"), [.val 3]⟩, ⟨edge (ct "a") (ct "c"), [.val 5]⟩,
   ⟨path X Y, [.sub (edge X Y)]⟩, ⟨path X Z, [.sub (path X Y), .sub (edge Y Z)]⟩,
   ⟨goal, [.sub (path (ct "a") Y), .sub (path (ct "a") Y), .eq Y (ct "c")]⟩]

private def cfg : Cfg ℕ := ⟨prog, fun c => c == 0, 0, fun a b => decide (a = b), fun a b => a == b⟩

private theorem cfg_same : ∀ a b, cfg.same a b = true → ∀ x, value a x = value b x := by
  intro a b h x
  have : a = b := by simpa [cfg] using h
  rw [this]

private theorem prog_ok : ∀ r ∈ prog, Safe r ∧ Ordered r := by
  intro r hr
  simp only [prog, List.mem_cons, List.not_mem_nil, or_false] at hr
  rcases hr with rfl | rfl | rfl | rfl | rfl | rfl
  · exact ⟨⟨fun n hn => by rcases hn with hn | ⟨z, hz, hn⟩ <;> simp_all [edge, ct, litVars], by simp⟩, by simp [Moded], by simp [edge, ct]⟩
  · exact ⟨⟨fun n hn => by rcases hn with hn | ⟨z, hz, hn⟩ <;> simp_all [edge, ct, litVars], by simp⟩, by simp [Moded], by simp [edge, ct]⟩
  · exact ⟨⟨fun n hn => by rcases hn with hn | ⟨z, hz, hn⟩ <;> simp_all [edge, ct, litVars], by simp⟩, by simp [Moded], by simp [edge, ct]⟩
  · refine ⟨⟨fun n hn => .sub (t := edge X Y) (by simp) ?_, ?_⟩, by simp [Moded], by decide⟩
    · rcases hn with hn | ⟨z, hz, hn⟩
      · simpa [path, edge, X, Y, ct] using hn
      · simp only [List.mem_singleton] at hz; subst hz; exact hn
    · intro t ht; simp only [List.mem_singleton, BLit.sub.injEq] at ht; subst ht; exact ⟨_, _, rfl⟩
  · refine ⟨⟨fun n hn => ?_, ?_⟩, by simp [Moded], by decide⟩
    · have : n = 0 ∨ n = 1 ∨ n = 2 := by
        rcases hn with hn | ⟨z, hz, hn⟩
        · simp [path, X, Z, ct] at hn; omega
        · simp only [List.mem_cons, List.not_mem_nil, or_false] at hz
          rcases hz with rfl | rfl <;> simp [litVars, path, edge, X, Y, Z, ct] at hn <;> omega
      rcases this with rfl | rfl | rfl
      · exact .sub (t := path X Y) (by simp) (by simp [path, X, Y, ct])
      · exact .sub (t := path X Y) (by simp) (by simp [path, X, Y, ct])
      · exact .sub (t := edge Y Z) (by simp) (by simp [edge, Y, Z, ct])
    · intro t ht
      simp only [List.mem_cons, BLit.sub.injEq, List.not_mem_nil, or_false] at ht
      rcases ht with rfl | rfl <;> exact ⟨_, _, rfl⟩
  · refine ⟨⟨fun n hn => .sub (t := path (ct "a") Y) (by simp) ?_, ?_⟩, by simp [Moded], by decide⟩
    · rcases hn with hn | ⟨z, hz, hn⟩
      · simp [goal, ct] at hn
      · simp only [List.mem_cons, List.not_mem_nil, or_false] at hz
        rcases hz with rfl | rfl | rfl <;> simp [litVars, path, X, Y, ct] at hn ⊢ <;> omega
    · intro t ht
      simp only [List.mem_cons, BLit.sub.injEq, List.not_mem_nil, or_false] at ht
      rcases ht with rfl | rfl | h
      · exact ⟨_, _, rfl⟩
      · exact ⟨_, _, rfl⟩
      · cases h

private def look (d : Dict Tm ℕ) : ℕ × ℕ × ℕ := (value d (edge (ct "a") (ct "c")), value d (path (ct "a") (ct "c")), value d goal)

-- the iterates: `edge`, then one-edge paths, then all paths, then the final value of `goal`
example : ((List.range 6).map fun n => (fcF cfg 40 n [] none).map fun p => (look p.1, p.2)) =
    [some ((0, 0, 0), unboundLocal), some ((5, 0, 0), .done), some ((5, 5, 0), .done), some ((5, 11, 25), .done), some ((5, 11, 121), .done),
     some ((5, 11, 121), .done)] := by decide +kernel
example : ((List.range 6).map fun n => (seminaive cfg 40 n).map fun p => (look p.1, p.2)) =
    [some ((0, 0, 0), .done), some ((5, 0, 0), .done), some ((5, 5, 0), .done), some ((5, 11, 25), .done), some ((5, 11, 121), .done),
     some ((5, 11, 121), .done)] := by decide +kernel

-- so the third iterate of the step operator gives `goal` the value 25
example : iter prog 3 goal = 25 := by
  have h : (fcF cfg 40 3 [] none).map (fun p => (p.2, value p.1 goal)) = some (.done, 25) := by decide +kernel
  rw [Option.map_eq_some_iff] at h
  obtain ⟨⟨q, sig⟩, e, e2⟩ := h
  simp only [Prod.mk.injEq] at e2
  obtain ⟨rfl, e2⟩ := e2
  rw [← e2, C26_rounds (g := cfg) (by simp [cfg]) cfg_same (fun r h => (prog_ok r h).1) e]
  rfl

/-- run the agenda, popping the rule that `pick` chooses -/
private def agExec (pick : Nat → Nat) : Nat → AgSt ℕ → Option (AgSt ℕ)
  | 0, _ => none
  | n + 1, st => if st.change.isEmpty then some st else
    match agStep cfg 40 (pick st.change.length) st with
    | some (st', .done) => agExec pick n st'
    | _ => none

private theorem agExec_sound {pick : Nat → Nat} : ∀ {n : Nat} {st st' : AgSt ℕ}, agExec pick n st = some st' → AgRun cfg st →
    AgRun cfg st' ∧ st'.change = [] := by
  intro n
  induction n with
  | zero => intro st st' e; simp [agExec] at e
  | succ n ih =>
    intro st st' e h
    simp only [agExec] at e
    split at e
    · rename_i hc
      simp only [Option.some.injEq] at e
      subst e
      exact ⟨h, List.isEmpty_iff.1 hc⟩
    · split at e
      · rename_i st1 e1
        exact ih e (.step h ⟨_, _, e1⟩)
      · simp at e

private def ag0 (pick : Nat → Nat) : Option (AgSt ℕ) := (stepF cfg 40 []).bind fun p => if p.2 = .done then agExec pick 40 ⟨[], [], p.1⟩ else none

example : (ag0 fun _ => 0).map (fun st => look st.new) = some (5, 11, 121) := by decide +kernel
example : (ag0 fun n => n - 1).map (fun st => look st.new) = some (5, 11, 121) := by decide +kernel

-- a complete run of the agenda on this program, with the hypotheses of C28
example : ∃ st, AgRun cfg st ∧ st.change = [] ∧ value st.new goal = 121 := by
  have h : (ag0 fun _ => 0).map (fun st => value st.new goal) = some 121 := by decide +kernel
  rw [Option.map_eq_some_iff] at h
  obtain ⟨st, e, e2⟩ := h
  obtain ⟨⟨c, sig⟩, e3, e4⟩ := Option.bind_eq_some_iff.1 e
  split at e4
  · rename_i hs
    simp only at hs
    subst hs
    obtain ⟨h1, h2⟩ := agExec_sound e4 (.init ⟨40, c, e3, rfl⟩)
    exact ⟨st, h1, h2, e2⟩
  · simp at e4

/-- `was.metric(now)` with a tolerance loses changes: with `1 ≈ 2` the agenda of `p += 1. p += 1·q. q += 1.`
stops at a chart that is not a fixpoint -/
private def coarse : Cfg ℕ := ⟨[⟨.app [ct "p"], [.val 1]⟩, ⟨.app [ct "p"], [.sub (.app [ct "q"])]⟩, ⟨.app [ct "q"], [.val 1]⟩, ⟨.app [ct "r"], [.sub (.app [ct "p"])]⟩],
  fun c => c == 0, 0, fun a b => decide (a = b), fun a b => decide (b ≤ a + 1)⟩

theorem C28_tolerance_loses : ∃ st, AgRun coarse st ∧ st.change = [] ∧
    (value st.new (.app [ct "p"]), value st.new (.app [ct "r"])) = (2, 1) := by
  have h : ((stepF coarse 40 []).bind fun p => (agStep coarse 40 0 ⟨[], [], p.1⟩).bind fun s1 => (agStep coarse 40 0 s1.1).bind fun s2 =>
      (agStep coarse 40 0 s2.1).bind fun s3 => (agStep coarse 40 0 s3.1).map fun s4 =>
        ([p.2, s1.2, s2.2, s3.2, s4.2] == [.done, .done, .done, .done, .done], s4.1.change.length, value s4.1.new (.app [ct "p"]),
          value s4.1.new (.app [ct "r"]))) = some (true, 0, 2, 1) := by decide +kernel
  obtain ⟨⟨c, g0⟩, e0, h⟩ := Option.bind_eq_some_iff.1 h
  obtain ⟨⟨s1, g1⟩, e1, h⟩ := Option.bind_eq_some_iff.1 h
  obtain ⟨⟨s2, g2⟩, e2, h⟩ := Option.bind_eq_some_iff.1 h
  obtain ⟨⟨s3, g3⟩, e3, h⟩ := Option.bind_eq_some_iff.1 h
  obtain ⟨⟨s4, g4⟩, e4, h⟩ := Option.map_eq_some_iff.1 h
  simp only [Prod.mk.injEq, beq_iff_eq, List.cons.injEq, and_true] at h
  obtain ⟨⟨rfl, rfl, rfl, rfl, rfl⟩, h1, h2, h3⟩ := h
  exact ⟨s4, .step (.step (.step (.step (.init ⟨40, c, e0, rfl⟩) ⟨40, 0, e1⟩) ⟨40, 0, e2⟩) ⟨40, 0, e3⟩) ⟨40, 0, e4⟩,
    List.length_eq_zero_iff.1 h1, by rw [h2, h3]⟩

end Examples

end Naive
end Verif
