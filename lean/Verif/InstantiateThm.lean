/-
Property C69: `groundings` yields every ground instance of every rule whose body holds in the chart, each once,
and the instantiated program has the values of the original one.
-/
import Verif.Instantiate
import Verif.NaiveThm

set_option linter.unusedSectionVars false
set_option linter.unusedSimpArgs false

namespace Verif
open Tm Heap

namespace Instantiate
open Solver (forEach forEach_restores forEach_cons_done RunCalls litVars value litVal instVal instAt contrib rhs
  Safe GSub InRule Bnd noHeap good_noHeap restr restr_in restr_head LitSat)
open Query Naive
variable {K : Type} [CommSemiring K]

/-! ### The specification -/

/-- a substitution applied to an element of a body, to a rule -/
def subLit (θ : Nat → Tm) : BLit K → BLit K
  | .val c => .val c
  | .sub t => .sub (t.sub θ)
  | .eq x y => .eq (x.sub θ) (y.sub θ)
  | .cmp o x y => .cmp o (x.sub θ) (y.sub θ)

def subRule (θ : Nat → Tm) (r : SRule K) : SRule K := ⟨r.head.sub θ, r.body.map (subLit θ)⟩

/-- the instance of `r` under `θ` fires against the chart with the values `vs` -/
def Fires (chart : Dict Tm K) (r : SRule K) (θ : Nat → Tm) (vs : List K) : Prop :=
  θ ∈ GSub r ∧ List.Forall₂ (LitSat chart θ) r.body vs

/-! ### Dereferencing -/

theorem derefLit_eq {h : Heap} {f : Nat} {z z' : BLit K} (e : derefLit h f z = some z') : z' = subLit (res h) z := by
  cases z with
  | val c => simp [derefLit] at e; simp [subLit, e]
  | sub q =>
    simp only [derefLit, Option.map_eq_some_iff] at e
    obtain ⟨q', e, rfl⟩ := e
    simp [subLit, deref_eq_sub e]
  | eq x y =>
    simp only [derefLit] at e
    split at e
    · rename_i ex ey
      simp only [Option.some.injEq] at e
      simp [← e, subLit, deref_eq_sub ex, deref_eq_sub ey]
    · simp at e
  | cmp o x y =>
    simp only [derefLit] at e
    split at e
    · rename_i ex ey
      simp only [Option.some.injEq] at e
      simp [← e, subLit, deref_eq_sub ex, deref_eq_sub ey]
    · simp at e

theorem derefBody_eq {h : Heap} {f : Nat} : ∀ {b b' : List (BLit K)}, b.mapM (derefLit h f) = some b' → b' = b.map (subLit (res h)) := by
  intro b
  induction b with
  | nil => intro b' e; simp at e; simp [e]
  | cons z b ih =>
    intro b' e
    simp only [List.mapM_cons, Option.pure_def, Option.bind_eq_bind, Option.bind_eq_some_iff, Option.some.injEq] at e
    obtain ⟨z', ez, b1, eb, rfl⟩ := e
    rw [derefLit_eq ez, ih eb]; rfl

theorem derefRule_eq {h : Heap} {f : Nat} {r r' : SRule K} (e : derefRule h f r = some r') : r' = subRule (res h) r := by
  unfold derefRule at e
  split at e
  · rename_i eh eb
    simp only [Option.some.injEq] at e
    simp [← e, subRule, deref_eq_sub eh, derefBody_eq eb]
  · simp at e

theorem subRule_congr {r : SRule K} {θ θ' : Nat → Tm} (h : ∀ n, InRule r n → θ n = θ' n) : subRule θ r = subRule θ' r := by
  unfold subRule
  congr 1
  · exact sub_congr fun n hn => h n (.inl hn)
  · refine List.map_congr_left fun z hz => ?_
    have h : ∀ n ∈ litVars z, θ n = θ' n := fun n hn => h n (.inr ⟨z, hz, hn⟩)
    cases z with
    | val c => rfl
    | sub t => exact congrArg _ (sub_congr h)
    | eq x y =>
      simp only [litVars, Finset.mem_union] at h
      simp only [subLit, sub_congr fun n hn => h n (.inl hn), sub_congr fun n hn => h n (.inr hn)]
    | cmp o x y =>
      simp only [litVars, Finset.mem_union] at h
      simp only [subLit, sub_congr fun n hn => h n (.inl hn), sub_congr fun n hn => h n (.inr hn)]

theorem subRule_inj {r : SRule K} {θ θ' : Nat → Tm} (hθ : θ ∈ GSub r) (hθ' : θ' ∈ GSub r) (e : subRule θ r = subRule θ' r) : θ = θ' := by
  simp only [subRule, SRule.mk.injEq] at e
  funext n
  by_cases hn : InRule r n
  · rcases hn with hn | ⟨z, hz, hn⟩
    · exact sub_eq_on_vars e.1 _ hn
    · have := List.map_inj_left.1 e.2 z hz
      cases z with
      | val c => simp [litVars] at hn
      | sub t => exact sub_eq_on_vars (by simpa [subLit] using this) _ hn
      | eq x y =>
        simp only [subLit, BLit.eq.injEq] at this
        rcases Finset.mem_union.1 hn with hn | hn
        · exact sub_eq_on_vars this.1 _ hn
        · exact sub_eq_on_vars this.2 _ hn
      | cmp o x y =>
        simp only [subLit, BLit.cmp.injEq, true_and] at this
        rcases Finset.mem_union.1 hn with hn | hn
        · exact sub_eq_on_vars this.1 _ hn
        · exact sub_eq_on_vars this.2 _ hn
  · rw [hθ.2 n hn, hθ'.2 n hn]

/-! ### The groundings of one rule -/

theorem pushG_restores {f i : Nat} {r : SRule K} {P : List K} : Restores (pushG f i r P) := by
  intro h s h' s' sig e
  unfold pushG at e
  split at e
  · simp at e; exact e.1.symm
  · simp at e

theorem pushG_eq {f i : Nat} {r : SRule K} {P : List K} {h h' : Heap} {s s' : List (Grounding K)} {sig : Sig}
    (e : pushG f i r P h s = some (h', s', sig)) : s' = s ++ [(i, subRule (res h) r, P)] := by
  unfold pushG at e
  split at e
  · rename_i r' er
    simp only [Option.some.injEq, Prod.mk.injEq] at e
    rw [← e.2.1, derefRule_eq er]
  · simp at e

theorem calls_push {f i : Nat} {r : SRule K} {g : List K → List K} {L : List (List K × Heap)} {s s' : List (Grounding K)}
    (h : RunCalls (fun vs => pushG f i r (g vs)) L s s') : s' = s ++ L.map fun p => (i, subRule (res p.2) r, g p.1) := by
  induction h with
  | nil => simp
  | cons e _ ih => rw [ih, pushG_eq e]; simp

theorem sat1_iff {chart : Dict Tm K} (hc : OkD chart) {θ : Nat → Tm} {z : BLit K} {v : K} :
    Sat1 id θ ((⟨chart, true⟩ : Src K), z) v ↔ LitSat chart θ z v := by
  cases z with
  | val k => simp [Sat1, LitSat]
  | sub t => exact ⟨fun h => Dict.get_of_mem hc.wf h, fun h => Dict.mem_of_get h⟩
  | eq x y => simp [Sat1, LitSat]
  | cmp o x y => simp [Sat1, LitSat]

theorem sats_iff {chart : Dict Tm K} (hc : OkD chart) {θ : Nat → Tm} {b : List (BLit K)} {vs : List K} :
    List.Forall₂ (Sat1 id θ) (b.map fun z => ((⟨chart, true⟩ : Src K), z)) vs ↔ List.Forall₂ (LitSat chart θ) b vs := by
  rw [List.forall₂_map_left_iff]
  constructor <;> exact fun h => h.imp fun _ _ h => by first | exact (sat1_iff hc).1 h | exact (sat1_iff hc).2 h

theorem litSat_fun {chart : Dict Tm K} {θ : Nat → Tm} {b : List (BLit K)} : ∀ {vs vs' : List K},
    List.Forall₂ (LitSat chart θ) b vs → List.Forall₂ (LitSat chart θ) b vs' → vs = vs' := by
  induction b with
  | nil => intro vs vs' h h'; cases h; cases h'; rfl
  | cons z b ih =>
    intro vs vs' h h'
    cases h with
    | cons h1 h2 => cases h' with
      | cons h1' h2' =>
        rw [ih h2 h2']
        congr 1
        cases z with
        | val k => exact h1.trans h1'.symm
        | sub t => exact Option.some.inj (h1.symm.trans h1')
        | eq x y => exact h1.2.trans h1'.2.symm
        | cmp o x y => exact h1.2.trans h1'.2.symm

/-- an enumeration of the firing instances of a rule, each once -/
structure Enum (chart : Dict Tm K) (r : SRule K) (Θ : List ((Nat → Tm) × List K)) : Prop where
  nodup : (Θ.map Prod.fst).Nodup
  iff : ∀ θ vs, (θ, vs) ∈ Θ ↔ Fires chart r θ vs

theorem yields_enum {chart : Dict Tm K} (hc : OkD chart) {r : SRule K} (hr : Safe r) {L : List (List K × Heap)}
    (hL : Yields id noHeap (r.body.map fun z => ((⟨chart, true⟩ : Src K), z)) L) :
    Enum chart r (L.map fun p => (restr r (res p.2), p.1)) := by
  have hmem : ∀ z, z ∈ r.body ↔ z ∈ (r.body.map fun z => ((⟨chart, true⟩ : Src K), z)).map Prod.snd := by
    intro z; simp [List.map_map, Function.comp_def]
  have hok : ∀ p ∈ r.body.map fun z => ((⟨chart, true⟩ : Src K), z), p.1.Ok := by
    intro p hp; obtain ⟨z, _, rfl⟩ := List.mem_map.1 hp; exact hc.src true
  have hs : ∀ p ∈ L, List.Forall₂ (Sat1 id (res p.2)) (r.body.map fun z => ((⟨chart, true⟩ : Src K), z)) p.1 :=
    fun p hp => (hL.sound p hp _ (hL.good p hp).respects_res).2
  have hgr : ∀ p ∈ L, ∀ n, InRule r n → Ground (res p.2 n) := fun p hp n hn => yield_ground hr hmem hok (hs p hp) hn
  have hres : ∀ p ∈ L, restr r (res p.2) ∈ GSub r := fun p hp =>
    ⟨fun n hn => by rw [restr_in hn]; exact hgr p hp n hn, fun n hn => by simp [restr, hn]⟩
  have hfire : ∀ p ∈ L, List.Forall₂ (LitSat chart (restr r (res p.2))) r.body p.1 := fun p hp =>
    Solver.restr_sat ((sats_iff hc).1 (hs p hp))
  constructor
  · unfold List.Nodup
    rw [List.map_map, List.pairwise_map]
    refine hL.disjoint.imp_of_mem ?_
    intro p p' hp hp' hd e
    simp only [Function.comp] at e
    have hagree : ∀ n, InRule r n → res p.2 n = res p'.2 n := by
      intro n hn
      have := congrFun e n
      rwa [restr_in hn, restr_in hn] at this
    refine hd ?_ (res p.2) (res p'.2) (fun z hz n hn => ?_) (hL.good p hp).respects_res (hL.good p' hp').respects_res
    · have h' := hfire p' hp'
      rw [← e] at h'
      exact litSat_fun (hfire p hp) h'
    · obtain ⟨z', hz', rfl⟩ := List.mem_map.1 hz
      exact hagree n (.inr ⟨z', hz', hn⟩)
  · intro θ vs
    constructor
    · intro h
      obtain ⟨p, hp, e⟩ := List.mem_map.1 h
      simp only [Prod.mk.injEq] at e
      obtain ⟨rfl, rfl⟩ := e
      exact ⟨hres p hp, hfire p hp⟩
    · rintro ⟨g, h⟩
      obtain ⟨p, hp, h2, rfl⟩ := hL.complete θ vs (Solver.respects_noHeap θ) ((sats_iff hc).2 h)
      refine List.mem_map.2 ⟨p, hp, ?_⟩
      simp only [Prod.mk.injEq, and_true]
      funext n
      by_cases hn : InRule r n
      · rw [restr_in hn]
        have h4 := Solver.sub_eq_of_ground (hL.good p hp) (x := .var n) (by simpa using hgr p hp n hn) h2
        simpa using h4.symm
      · rw [g.2 n hn]; simp [restr, hn]

/-- what a grounding lists as values: `one` for an empty body -/
def vals (b : List (BLit K)) (vs : List K) : List K := if b.isEmpty then [1] else vs

theorem pad_vals {b : List (BLit K)} {vs : List K} : pad id b vs = vals b vs := by cases b <;> rfl

/-- the groundings listed for the `i`-th rule -/
def Lists (chart : Dict Tm K) (p : SRule K × Nat) (T : List (Grounding K)) : Prop :=
  ∃ Θ, Enum chart p.1 Θ ∧ T = Θ.map fun q => (p.2, subRule q.1 p.1, vals p.1.body q.2)

theorem rule_lists {chart : Dict Tm K} (hc : OkD chart) {r : SRule K} (hr : Safe r) {f i : Nat} {s h' s'}
    (e : getItem f id ⟨chart, true⟩ r.body (pushG f i r) noHeap s = some (h', s', .done)) :
    ∃ T, s' = s ++ T ∧ Lists chart (r, i) T := by
  obtain ⟨L, hL, hrun⟩ := getItem_spec (hc.src true) (safe_fn hr) (fun _ => pushG_restores) good_noHeap e
  refine ⟨_, calls_push hrun, _, yields_enum hc hr hL, ?_⟩
  rw [List.map_map]
  refine List.map_congr_left fun p _ => ?_
  simp only [Function.comp, pad_vals]
  rw [subRule_congr (θ := res p.2) (θ' := restr r (res p.2)) fun n hn => (restr_in hn).symm]

theorem forEach_lists {α β : Type} {R : α → List β → Prop} {b : α → Body (List β)} (hb : ∀ a, Restores (b a)) {h : Heap} :
    ∀ {l : List α} {s h' s'}, (∀ a ∈ l, ∀ s s', b a h s = some (h, s', .done) → ∃ T, s' = s ++ T ∧ R a T) →
      forEach l b h s = some (h', s', .done) → ∃ Ts, List.Forall₂ R l Ts ∧ s' = s ++ Ts.flatten := by
  intro l
  induction l with
  | nil =>
    intro s h' s' _ e
    simp only [forEach, Option.some.injEq, Prod.mk.injEq, and_true] at e
    exact ⟨[], .nil, by simp [e.2]⟩
  | cons a l ih =>
    intro s h' s' hl e
    obtain ⟨h1, s1, e1, e2⟩ := forEach_cons_done e
    have := hb a _ _ _ _ _ e1
    subst this
    obtain ⟨T, rfl, hT⟩ := hl a (by simp) _ _ e1
    obtain ⟨Ts, hTs, rfl⟩ := ih (fun b hb => hl b (by simp [hb])) e2
    exact ⟨T :: Ts, .cons hT hTs, by simp⟩

theorem groundings_lists {chart : Dict Tm K} (hc : OkD chart) {rules : List (SRule K)} (hr : ∀ r ∈ rules, Safe r) {f : Nat}
    {G : List (Grounding K)} (e : groundings f rules chart = some (G, .done)) :
    ∃ Ts, List.Forall₂ (Lists chart) rules.zipIdx Ts ∧ G = Ts.flatten := by
  unfold groundings at e
  rw [Option.map_eq_some_iff] at e
  obtain ⟨⟨h', G', sig⟩, e, e2⟩ := e
  simp only [Prod.mk.injEq] at e2
  obtain ⟨rfl, rfl⟩ := e2
  obtain ⟨Ts, h1, h2⟩ := forEach_lists (R := Lists chart) (fun p => getItem_restores fun _ => pushG_restores)
    (fun p hp s s' e => rule_lists hc (hr p.1 (List.fst_mem_of_mem_zipIdx hp)) e) e
  exact ⟨Ts, h1, by simpa using h2⟩

/-! ### Property C69 -/

theorem forall₂_mem {α β : Type} {R : α → β → Prop} {l : List α} {l' : List β} (h : List.Forall₂ R l l') :
    (∀ b ∈ l', ∃ a ∈ l, R a b) ∧ ∀ a ∈ l, ∃ b ∈ l', R a b := by
  induction h with
  | nil => simp
  | cons h1 _ ih =>
    refine ⟨fun b hb => ?_, fun a ha => ?_⟩
    · rcases List.mem_cons.1 hb with rfl | hb
      · exact ⟨_, by simp, h1⟩
      · obtain ⟨a, ha, h⟩ := ih.1 b hb; exact ⟨a, by simp [ha], h⟩
    · rcases List.mem_cons.1 ha with rfl | ha
      · exact ⟨_, by simp, h1⟩
      · obtain ⟨b, hb, h⟩ := ih.2 a ha; exact ⟨b, by simp [hb], h⟩

/-- `groundings(chart)`, when it ends, yields exactly the instances of the rules that fire against the chart, with the
index of the rule and the values of the body; no instance of a rule twice; in the order of the rules. -/
theorem C69_exact {chart : Dict Tm K} (hc : OkD chart) {rules : List (SRule K)} (hr : ∀ r ∈ rules, Safe r) {f : Nat}
    {G : List (Grounding K)} (e : groundings f rules chart = some (G, .done)) :
    (∀ i r' P, (i, r', P) ∈ G ↔ ∃ r θ vs, rules[i]? = some r ∧ Fires chart r θ vs ∧ r' = subRule θ r ∧ P = vals r.body vs) ∧
    (G.map fun g => (g.1, g.2.1)).Nodup ∧ (G.map (·.1)).Pairwise (· ≤ ·) := by
  obtain ⟨Ts, hTs, rfl⟩ := groundings_lists hc hr e
  refine ⟨fun i r' P => ⟨fun h => ?_, ?_⟩, ?_⟩
  · obtain ⟨T, hT, h⟩ := List.mem_flatten.1 h
    obtain ⟨⟨r, j⟩, hp, Θ, hΘ, rfl⟩ := (forall₂_mem hTs).1 T hT
    obtain ⟨⟨θ, vs⟩, hq, e⟩ := List.mem_map.1 h
    simp only [Prod.mk.injEq] at e
    obtain ⟨rfl, rfl, rfl⟩ := e
    exact ⟨r, θ, vs, List.mem_zipIdx_iff_getElem?.1 hp, (hΘ.iff _ _).1 hq, rfl, rfl⟩
  · rintro ⟨r, θ, vs, hi, hf, rfl, rfl⟩
    obtain ⟨T, hT, Θ, hΘ, rfl⟩ := (forall₂_mem hTs).2 (r, i) (List.mem_zipIdx_iff_getElem?.2 hi)
    exact List.mem_flatten.2 ⟨_, hT, List.mem_map.2 ⟨(θ, vs), (hΘ.iff _ _).2 hf, rfl⟩⟩
  · have key : ∀ (l : List (SRule K × Nat)) Ts, List.Forall₂ (Lists chart) l Ts → (l.map (·.2)).Pairwise (· < ·) →
        (∀ g ∈ Ts.flatten, ∃ p ∈ l, g.1 = p.2) ∧ (Ts.flatten.map fun g => (g.1, g.2.1)).Nodup ∧ (Ts.flatten.map (·.1)).Pairwise (· ≤ ·) := by
      intro l Ts h
      induction h with
      | nil => intro _; simp
      | @cons p T l Ts h1 _ ih =>
        intro hl
        simp only [List.map_cons, List.pairwise_cons] at hl
        obtain ⟨i1, i2, i3⟩ := ih hl.2
        obtain ⟨Θ, hΘ, rfl⟩ := h1
        refine ⟨?_, ?_, ?_⟩
        · intro g hg
          rw [List.flatten_cons, List.mem_append] at hg
          rcases hg with hg | hg
          · obtain ⟨q, _, rfl⟩ := List.mem_map.1 hg
            exact ⟨p, by simp, rfl⟩
          · obtain ⟨p', hp', e⟩ := i1 g hg
            exact ⟨p', by simp [hp'], e⟩
        · rw [List.flatten_cons, List.map_append, List.nodup_append]
          refine ⟨?_, i2, ?_⟩
          · rw [List.map_map]
            have hnd := hΘ.nodup
            unfold List.Nodup at hnd ⊢
            rw [List.pairwise_map] at hnd ⊢
            refine hnd.imp_of_mem ?_
            intro a b ha hb hne he
            simp only [Function.comp, Prod.mk.injEq, true_and] at he
            exact hne (subRule_inj ((hΘ.iff _ _).1 ha).1 ((hΘ.iff _ _).1 hb).1 he)
          · intro a ha b hb he
            obtain ⟨g, hg, rfl⟩ := List.mem_map.1 ha
            obtain ⟨q, _, rfl⟩ := List.mem_map.1 hg
            obtain ⟨g', hg', rfl⟩ := List.mem_map.1 hb
            obtain ⟨p', hp', e⟩ := i1 g' hg'
            have := hl.1 p'.2 (List.mem_map.2 ⟨p', hp', rfl⟩)
            simp only [Prod.mk.injEq] at he
            omega
        · rw [List.flatten_cons, List.map_append, List.pairwise_append]
          refine ⟨?_, i3, ?_⟩
          · rw [List.map_map, List.pairwise_map]
            exact (List.pairwise_map.1 hΘ.nodup).imp fun _ => le_refl _
          · intro a ha b hb
            obtain ⟨g, hg, rfl⟩ := List.mem_map.1 ha
            obtain ⟨q, _, rfl⟩ := List.mem_map.1 hg
            obtain ⟨g', hg', rfl⟩ := List.mem_map.1 hb
            obtain ⟨p', hp', e⟩ := i1 g' hg'
            have := hl.1 p'.2 (List.mem_map.2 ⟨p', hp', rfl⟩)
            simp only
            omega
    have hlt : (rules.zipIdx.map (·.2)).Pairwise (· < ·) := by
      rw [List.zipIdx_map_snd]; exact List.pairwise_lt_range'
    exact (key _ _ hTs hlt).2

/-! #### The instantiated program -/

/-- a ground rule has one instance, itself -/
theorem contrib_ground {r : SRule K} (hg : ∀ n, ¬ InRule r n) (v : Tm → K) (x : Tm) :
    contrib r v x = if r.head = x then instVal v r.body .var else 0 := by
  classical
  have hmem : ∀ θ : Nat → Tm, θ ∈ GSub r ↔ θ = .var := by
    intro θ
    constructor
    · intro h; funext n; exact h.2 n (hg n)
    · rintro rfl; exact ⟨fun n hn => absurd hn (hg n), fun n _ => rfl⟩
  unfold contrib
  rw [finsum_eq_single _ Tm.var]
  · simp only [instAt, (hmem _).2 rfl, true_and, sub_id]
  · intro θ hθ
    simp [instAt, hmem, hθ]

theorem vars_sub_ground {r : SRule K} {θ : Nat → Tm} (hθ : θ ∈ GSub r) {t : Tm} (ht : ∀ n ∈ vars t, InRule r n) : Ground (t.sub θ) :=
  Solver.ground_sub fun n hn => hθ.1 n (ht n hn)

theorem subRule_ground {r : SRule K} {θ : Nat → Tm} (hθ : θ ∈ GSub r) (n : Nat) : ¬ InRule (subRule θ r) n := by
  have no : ∀ {t : Tm}, (∀ n ∈ vars t, InRule r n) → n ∉ vars (t.sub θ) := fun {t} ht hn => by
    have : vars (t.sub θ) = ∅ := vars_sub_ground hθ ht
    rw [this] at hn; simp at hn
  rintro (hn | ⟨z, hz, hn⟩)
  · exact no (fun m hm => .inl hm) hn
  · obtain ⟨z, hz', rfl⟩ := List.mem_map.1 hz
    have hin : ∀ m ∈ litVars z, InRule r m := fun m hm => .inr ⟨z, hz', hm⟩
    cases z with
    | val c => simp [subLit, litVars] at hn
    | sub t => exact no hin hn
    | eq x y =>
      simp only [litVars, Finset.mem_union] at hin
      rcases Finset.mem_union.1 hn with hn | hn
      · exact no (fun m hm => hin m (.inl hm)) hn
      · exact no (fun m hm => hin m (.inr hm)) hn
    | cmp o x y =>
      simp only [litVars, Finset.mem_union] at hin
      rcases Finset.mem_union.1 hn with hn | hn
      · exact no (fun m hm => hin m (.inl hm)) hn
      · exact no (fun m hm => hin m (.inr hm)) hn

theorem subRule_val {r : SRule K} {θ : Nat → Tm} {v : Tm → K} : instVal v (subRule θ r).body .var = instVal v r.body θ := by
  unfold instVal subRule
  rw [List.map_map]
  congr 1
  refine List.map_congr_left fun z _ => ?_
  cases z <;> simp [subLit, litVal, sub_id]

theorem subRule_safe {r : SRule K} (hr : Safe r) {θ : Nat → Tm} (hθ : θ ∈ GSub r) : Safe (subRule θ r) := by
  refine ⟨fun n hn => absurd hn (subRule_ground hθ n), fun t ht => ?_⟩
  obtain ⟨z, hz, e⟩ := List.mem_map.1 ht
  cases z with
  | sub q =>
    simp only [subLit, BLit.sub.injEq] at e
    obtain ⟨c, as, rfl⟩ := hr.fn q hz
    exact ⟨c, as.map (·.sub θ), by rw [← e]; simp [sub_app]⟩
  | val c => simp [subLit] at e
  | eq x y => simp [subLit] at e
  | cmp o x y => simp [subLit] at e

/-- an instance without firing contributes nothing to valuations that are zero outside the chart -/
theorem fires_of_ne {chart : Dict Tm K} {v : Tm → K} (hv : ∀ y, Dict.get chart y = none → v y = 0) {b : List (BLit K)} {θ : Nat → Tm}
    (h : instVal v b θ ≠ 0) : ∃ vs, List.Forall₂ (LitSat chart θ) b vs := by
  induction b with
  | nil => exact ⟨[], .nil⟩
  | cons z b ih =>
    simp only [instVal, List.map_cons, List.prod_cons] at h
    obtain ⟨vs, hvs⟩ := ih (right_ne_zero_of_mul h)
    have hz := left_ne_zero_of_mul h
    cases z with
    | val k => exact ⟨k :: vs, .cons rfl hvs⟩
    | sub t =>
      cases hg : Dict.get chart (t.sub θ) with
      | none => exact absurd (hv _ hg) hz
      | some w => exact ⟨w :: vs, .cons hg hvs⟩
    | eq x y =>
      by_cases hx : x.sub θ = y.sub θ
      · exact ⟨1 :: vs, .cons ⟨hx, rfl⟩ hvs⟩
      · simp [litVal, hx] at hz
    | cmp o x y =>
      by_cases hx : o (x.sub θ) (y.sub θ) = true
      · exact ⟨1 :: vs, .cons ⟨hx, rfl⟩ hvs⟩
      · simp [litVal, hx] at hz

theorem enum_sum {chart : Dict Tm K} {r : SRule K} {Θ : List ((Nat → Tm) × List K)} (hΘ : Enum chart r Θ) {v : Tm → K}
    (hv : ∀ y, Dict.get chart y = none → v y = 0) (x : Tm) :
    (Θ.map fun q => contrib (subRule q.1 r) v x).sum = contrib r v x := by
  classical
  have hsup : Function.support (instAt r v x) ⊆ ↑(Θ.map Prod.fst).toFinset := by
    intro θ hθ
    have hθ : instAt r v x θ ≠ 0 := hθ
    unfold instAt at hθ
    split at hθ
    · rename_i hc
      obtain ⟨vs, hvs⟩ := fires_of_ne hv hθ
      simp only [List.coe_toFinset, Set.mem_setOf_eq, List.mem_map]
      exact ⟨(θ, vs), (hΘ.iff _ _).2 ⟨hc.1, hvs⟩, rfl⟩
    · exact absurd rfl hθ
  conv_rhs => unfold contrib
  rw [finsum_eq_sum_of_support_subset _ hsup, List.sum_toFinset _ hΘ.nodup, List.map_map]
  congr 1
  refine List.map_congr_left fun q hq => ?_
  have hg := ((hΘ.iff q.1 q.2).1 hq).1
  rw [contrib_ground (subRule_ground hg), subRule_val]
  simp only [Function.comp, instAt, hg, true_and, subRule]
  congr

theorem instantiate_some {f : Nat} {rules I : List (SRule K)} {chart : Dict Tm K} (e : instantiate f rules chart = some I) :
    ∃ G, groundings f rules chart = some (G, .done) ∧ I = G.map fun g => g.2.1 := by
  unfold instantiate at e
  split at e
  · rename_i G eG
    exact ⟨G, eG, (Option.some.inj e).symm⟩
  · simp at e

/-- The rules of `instantiate(chart)` are ground. -/
theorem C69_ground {chart : Dict Tm K} (hc : OkD chart) {rules : List (SRule K)} (hr : ∀ r ∈ rules, Safe r) {f : Nat}
    {I : List (SRule K)} (e : instantiate f rules chart = some I) : ∀ r ∈ I, Safe r ∧ ∀ n, ¬ InRule r n := by
  obtain ⟨G, eG, rfl⟩ := instantiate_some e
  intro r hrm
  obtain ⟨⟨i, r', P⟩, hg, rfl⟩ := List.mem_map.1 hrm
  obtain ⟨r, θ, vs, hi, hf, rfl, _⟩ := ((C69_exact hc hr eG).1 i r' P).1 hg
  exact ⟨subRule_safe (hr r (List.mem_of_getElem? hi)) hf.1, subRule_ground hf.1⟩

/-- On valuations that vanish outside the chart, the step operators of the program and of its instantiation agree. -/
theorem C69_step {chart : Dict Tm K} (hc : OkD chart) {rules : List (SRule K)} (hr : ∀ r ∈ rules, Safe r) {f : Nat}
    {I : List (SRule K)} (e : instantiate f rules chart = some I) {v : Tm → K} (hv : ∀ y, Dict.get chart y = none → v y = 0)
    (x : Tm) : rhs I v x = rhs rules v x := by
  obtain ⟨G, eG, rfl⟩ := instantiate_some e
  obtain ⟨Ts, hTs, rfl⟩ := groundings_lists hc hr eG
  have : ∀ (l : List (SRule K × Nat)) Ts, List.Forall₂ (Lists chart) l Ts →
      ((Ts.flatten.map fun g => g.2.1).map fun r => contrib r v x).sum = (l.map fun p => contrib p.1 v x).sum := by
    intro l Ts h
    induction h with
    | nil => rfl
    | cons h1 _ ih =>
      obtain ⟨Θ, hΘ, rfl⟩ := h1
      simp only [List.flatten_cons, List.map_append, List.sum_append, List.map_cons, List.sum_cons, ih]
      rw [← enum_sum hΘ hv x]
      simp only [List.map_map]
      rfl
  unfold rhs
  rw [this _ _ hTs, show (fun p : SRule K × Nat => contrib p.1 v x) = (fun r => contrib r v x) ∘ Prod.fst from rfl,
    ← List.map_map, List.zipIdx_map_fst]

theorem value_none {d : Dict Tm K} {y : Tm} (h : Dict.get d y = none) : value d y = 0 := by simp [value, h]

/-- The chart that `agenda` ends with is a fixpoint of the program instantiated against it. -/
theorem C69_fixpoint {g : Cfg K} (hd : ∀ c, g.dead c = true → c = 0) (hcl : ∀ a b, g.close a b = true → a = b)
    (hr : ∀ r ∈ g.rules, Safe r) {st : AgSt K} (h : AgRun g st) (hq : st.change = []) {f : Nat} {I : List (SRule K)}
    (e : instantiate f g.rules st.new = some I) (x : Tm) : value st.new x = rhs I (value st.new) x := by
  rw [C69_step (ag_run hd hcl hr h).new hr e (fun y hy => value_none hy), ← C28_fixpoint hd hcl hr h hq]

section Ordered
variable [PartialOrder K] [IsOrderedRing K]

theorem below_zero (h0 : ∀ k : K, 0 ≤ k) {chart : Dict Tm K} {v : Tm → K} (h : ∀ x, v x ≤ value chart x) :
    ∀ y, Dict.get chart y = none → v y = 0 := fun y hy => le_antisymm (by simpa [value_none hy] using h y) (h0 _)

/-- In an ordered semiring with `0` as least element, against a chart that the program maps to itself or below, the
instantiated program has the same iterates as the program: `fc` of both computes the same after any number of rounds. -/
theorem C69_rounds (h0 : ∀ k : K, 0 ≤ k) {chart : Dict Tm K} (hc : OkD chart) {rules : List (SRule K)} (hr : ∀ r ∈ rules, Safe r)
    (hcl : Closed rules (value chart)) {f : Nat} {I : List (SRule K)} (e : instantiate f rules chart = some I) (n : Nat) (x : Tm) :
    iter I n x = iter rules n x := by
  classical
  have key : ∀ n, (∀ x, iter rules n x ≤ value chart x) ∧ ∀ x, iter I n x = iter rules n x := by
    intro n
    induction n with
    | zero => exact ⟨fun x => h0 _, fun x => rfl⟩
    | succ n ih =>
      have hz := below_zero h0 ih.1
      refine ⟨fun x => ?_, fun x => ?_⟩
      · show rhs rules (iter rules n) x ≤ _
        refine le_trans ?_ (hcl x fun r => if hb : Safe r then (Solver.sat_finite (chart := chart) hb.bnd).toFinset else ∅)
        unfold rhs
        refine List.sum_le_sum fun r hrm => ?_
        rw [dif_pos (hr r hrm)]
        unfold contrib
        rw [finsum_eq_sum_of_support_subset (s := (Solver.sat_finite (chart := chart) (hr r hrm).bnd).toFinset)]
        · exact Finset.sum_le_sum fun θ _ => Solver.instAt_mono h0 ih.1 r x θ
        · intro θ hθ
          have hθ : instAt r (iter rules n) x θ ≠ 0 := hθ
          unfold instAt at hθ
          split at hθ
          · rename_i hc'
            obtain ⟨vs, hvs⟩ := fires_of_ne hz hθ
            simp only [Set.Finite.coe_toFinset]
            exact ⟨hc'.1, Solver.sat_sub hvs⟩
          · exact absurd rfl hθ
      · show rhs I (iter I n) x = rhs rules (iter rules n) x
        rw [rhs_congr ih.2, C69_step hc hr e hz]
  exact (key n).2 x

/-- `agenda` on the program instantiated against the chart that `agenda` ended with gives the same chart. -/
theorem C69_agenda (h0 : ∀ k : K, 0 ≤ k) {g : Cfg K} (hd : ∀ c, g.dead c = true → c = 0) (hcl : ∀ a b, g.close a b = true → a = b)
    (hr : ∀ r ∈ g.rules, Safe r) {st : AgSt K} (h : AgRun g st) (hq : st.change = []) {f : Nat} {I : List (SRule K)}
    (e : instantiate f g.rules st.new = some I) {st' : AgSt K} (h' : AgRun { g with rules := I } st') (hq' : st'.change = []) (x : Tm) :
    value st'.new x = value st.new x := by
  have hok := (ag_run hd hcl hr h).new
  have hI : ∀ r ∈ I, Safe r := fun r hrm => (C69_ground hok hr e r hrm).1
  have hle : ∀ x, value st'.new x ≤ value st.new x := (C28_least h0 (g := { g with rules := I }) hd hcl hI h').1 _
    (fixpoint_closed h0 hI (C69_fixpoint hd hcl hr h hq e))
  refine le_antisymm (hle x) ((C28_least h0 hd hcl hr h).1 _ (fixpoint_closed h0 hr fun y => ?_) x)
  rw [← C69_step hok hr e (below_zero h0 hle)]
  exact C28_fixpoint (g := { g with rules := I }) hd hcl hI h' hq' y

end Ordered

/-- Instantiating again against the same chart changes nothing: the same rules in the same order. -/
theorem C69_again {chart : Dict Tm K} (hc : OkD chart) {rules : List (SRule K)} (hr : ∀ r ∈ rules, Safe r) {f f' : Nat}
    {I I' : List (SRule K)} (e : instantiate f rules chart = some I) (e' : instantiate f' I chart = some I') : I' = I := by
  have hI := C69_ground hc hr e
  have hfire : ∀ r ∈ I, ∃ vs, Fires chart r .var vs := by
    obtain ⟨G, eG, rfl⟩ := instantiate_some e
    intro r hrm
    obtain ⟨⟨i, r', P⟩, hg, rfl⟩ := List.mem_map.1 hrm
    obtain ⟨r, θ, vs, hi, hf, rfl, _⟩ := ((C69_exact hc hr eG).1 i r' P).1 hg
    refine ⟨vs, ⟨fun n hn => absurd hn (subRule_ground hf.1 n), fun n _ => rfl⟩, ?_⟩
    simp only [subRule, List.forall₂_map_left_iff]
    refine hf.2.imp fun z v hz => ?_
    cases z <;> simpa [subLit, LitSat, sub_id] using hz
  obtain ⟨G', eG', rfl⟩ := instantiate_some e'
  obtain ⟨Ts, hTs, rfl⟩ := groundings_lists hc (fun r hrm => (hI r hrm).1) eG'
  have : ∀ (l : List (SRule K × Nat)) Ts, List.Forall₂ (Lists chart) l Ts → (∀ p ∈ l, p.1 ∈ I) →
      (Ts.flatten.map fun g => g.2.1) = l.map Prod.fst := by
    intro l Ts h
    induction h with
    | nil => intro _; rfl
    | @cons p T l Ts h1 _ ih =>
      intro hl
      obtain ⟨Θ, hΘ, rfl⟩ := h1
      have hp := hl p (by simp)
      obtain ⟨vs, hvs⟩ := hfire p.1 hp
      have hall : ∀ q ∈ Θ, q.1 = Tm.var := fun q hq => by
        funext n; exact ((hΘ.iff q.1 q.2).1 hq).1.2 n ((hI p.1 hp).2 n)
      have hin := (hΘ.iff _ _).2 hvs
      have hlen : Θ.length ≤ 1 := by
        have h1 := hΘ.nodup
        have h2 : Θ.map Prod.fst = List.replicate Θ.length Tm.var := by
          rw [List.eq_replicate_iff]
          refine ⟨by simp, fun b hb => ?_⟩
          obtain ⟨q, hq, rfl⟩ := List.mem_map.1 hb
          exact hall q hq
        rw [h2] at h1
        exact List.nodup_replicate.1 h1
      match Θ, hlen, hin with
      | [q], _, hin =>
        simp only [List.mem_singleton] at hin
        subst hin
        simp only [List.map_cons, List.map_nil, List.flatten_cons, List.singleton_append, List.map_cons]
        rw [ih fun p hp => hl p (by simp [hp])]
        congr 1
        have hid : ∀ z : BLit K, subLit Tm.var z = z := by intro z; cases z <;> simp [subLit, sub_id]
        simp only [subRule, sub_id]
        rw [show subLit (K := K) Tm.var = id from funext hid, List.map_id]
  rw [this _ _ hTs (fun p hp => List.fst_mem_of_mem_zipIdx hp), List.zipIdx_map_fst]

/-! ### It ends -/

theorem derefRule_ends {h : Heap} (hg : Good h) (r : SRule K) : ∃ N r', ∀ f ≥ N, derefRule h f r = some r' := by
  have hlit : ∀ z : BLit K, ∃ N z', ∀ f ≥ N, derefLit h f z = some z' := by
    intro z
    cases z with
    | val c => exact ⟨0, _, fun f _ => rfl⟩
    | sub t =>
      obtain ⟨N, e⟩ := hg.deref t
      exact ⟨N, _, fun f hf => by simp only [derefLit, deref_mono e hf]; rfl⟩
    | eq x y =>
      obtain ⟨N, e⟩ := hg.deref x
      obtain ⟨M, e'⟩ := hg.deref y
      exact ⟨max N M, _, fun f hf => by simp only [derefLit, deref_mono e (le_of_max_le_left hf), deref_mono e' (le_of_max_le_right hf)]; rfl⟩
    | cmp o x y =>
      obtain ⟨N, e⟩ := hg.deref x
      obtain ⟨M, e'⟩ := hg.deref y
      exact ⟨max N M, _, fun f hf => by simp only [derefLit, deref_mono e (le_of_max_le_left hf), deref_mono e' (le_of_max_le_right hf)]; rfl⟩
  have hb : ∀ b : List (BLit K), ∃ N b', ∀ f ≥ N, b.mapM (derefLit h f) = some b' := by
    intro b
    induction b with
    | nil => exact ⟨0, [], fun f _ => rfl⟩
    | cons z b ih =>
      obtain ⟨N, z', e⟩ := hlit z
      obtain ⟨M, b', e'⟩ := ih
      exact ⟨max N M, z' :: b', fun f hf => by
        simp [List.mapM_cons, e f (le_of_max_le_left hf), e' f (le_of_max_le_right hf)]⟩
  obtain ⟨N, e⟩ := hg.deref r.head
  obtain ⟨M, b', e'⟩ := hb r.body
  exact ⟨max N M, _, fun f hf => by simp only [derefRule, deref_mono e (le_of_max_le_left hf), e' f (le_of_max_le_right hf)]; rfl⟩

/-- If the bodies can be evaluated from left to right, `instantiate` ends. -/
theorem C69_total {chart : Dict Tm K} (hc : OkD chart) {rules : List (SRule K)} (hr : ∀ r ∈ rules, Safe r ∧ Ordered r) :
    ∃ N I, ∀ f ≥ N, instantiate f rules chart = some I := by
  have : Ends (fun f => forEach rules.zipIdx (fun p => getItem f id ⟨chart, true⟩ p.1.body (pushG f p.2 p.1))) noHeap := by
    refine forEach_ends fun p hp => ?_
    have hp := hr p.1 (List.fst_mem_of_mem_zipIdx hp)
    refine getItem_ends (k := fun f => pushG f p.2 p.1) (fun _ _ => pushG_restores) (hc.src true) (safe_fn hp.1) good_noHeap
      (B := ∅) (by intro n hn; simp at hn) hp.2.body fun vs h1 g1 _ hB => ?_
    obtain ⟨N, r', e⟩ := derefRule_ends g1 p.1
    exact ⟨N, fun s => ⟨s ++ [(p.2, r', vs)], fun f hf => by simp only [pushG, e f hf]⟩⟩
  obtain ⟨N, hN⟩ := this
  obtain ⟨q, hq⟩ := hN []
  beta_reduce at hq
  refine ⟨N, q.map fun g => g.2.1, fun f hf => ?_⟩
  unfold instantiate groundings
  rw [hq f hf]
  rfl

section Examples

private def ct (s : String) : Tm := .con (.str s)
private def X : Tm := .var 0
private def Y : Tm := .var 1
private def Z : Tm := .var 2
private def edge (x y : Tm) : Tm := .app [ct "edge", x, y]
private def path (x y : Tm) : Tm := .app [ct "path", x, y]

/-- `edge(a,b) += 2.  edge(b,c) += 3.  path(X,Y) += edge(X,Y).  path(X,Z) += path(X,Y) * edge(Y,Z).` -/
private def prog : List (SRule ℕ) :=
  [⟨edge (ct "a") (ct "b"), [.val 2]⟩, ⟨edge (ct "b") (ct "c"), [.val 3]⟩,
   ⟨path X Y, [.sub (edge X Y)]⟩, ⟨path X Z, [.sub (path X Y), .sub (edge Y Z)]⟩]

private def cfg : Cfg ℕ := ⟨prog, fun c => c == 0, 0, fun a b => decide (a = b), fun a b => a == b⟩

private def chart : Dict Tm ℕ := [(edge (ct "a") (ct "b"), 2), (edge (ct "b") (ct "c"), 3), (path (ct "a") (ct "b"), 2),
  (path (ct "b") (ct "c"), 3), (path (ct "a") (ct "c"), 6)]

private theorem prog_ok : ∀ r ∈ prog, Safe r ∧ Ordered r := by
  intro r hr
  simp only [prog, List.mem_cons, List.not_mem_nil, or_false] at hr
  rcases hr with rfl | rfl | rfl | rfl
  · exact ⟨⟨fun n hn => by rcases hn with hn | ⟨z, hz, hn⟩ <;> simp_all [edge, ct, litVars], by simp⟩, by simp [Moded], by simp [edge, ct]⟩
  · exact ⟨⟨fun n hn => by rcases hn with hn | ⟨z, hz, hn⟩ <;> simp_all [edge, ct, litVars], by simp⟩, by simp [Moded], by simp [edge, ct]⟩
  · refine ⟨⟨fun n hn => .sub (t := edge X Y) (by simp) ?_, ?_⟩, by simp [Moded], by decide⟩
    · rcases hn with hn | ⟨z, hz, hn⟩
      · simpa [path, edge, X, Y, ct] using hn
      · simp only [List.mem_singleton] at hz; subst hz; exact hn
    · intro t ht; simp only [List.mem_singleton, BLit.sub.injEq] at ht; subst ht; exact ⟨_, _, rfl⟩
  · refine ⟨⟨fun n hn => ?_, ?_⟩, by simp [Moded], by decide⟩
    · have : n = 0 ∨ n = 1 ∨ n = 2 := by
        rcases hn with hn | ⟨z, hz, hn⟩
        · simp [path, X, Z, ct] at hn; omega
        · simp only [List.mem_cons, List.not_mem_nil, or_false] at hz
          rcases hz with rfl | rfl <;> simp [litVars, path, edge, X, Y, Z, ct] at hn <;> omega
      rcases this with rfl | rfl | rfl
      · exact .sub (t := path X Y) (by simp) (by simp [path, X, Y, ct])
      · exact .sub (t := path X Y) (by simp) (by simp [path, X, Y, ct])
      · exact .sub (t := edge Y Z) (by simp) (by simp [edge, Y, Z, ct])
    · intro t ht
      simp only [List.mem_cons, BLit.sub.injEq, List.not_mem_nil, or_false] at ht
      rcases ht with rfl | rfl <;> exact ⟨_, _, rfl⟩

private theorem chart_ok : OkD chart := ⟨by unfold Dict.WF; decide, by
  intro x hx
  simp only [chart, Dict.keys, List.map_cons, List.map_nil, List.mem_cons, List.not_mem_nil, or_false] at hx
  rcases hx with rfl | rfl | rfl | rfl | rfl <;> simp [Ground, edge, path, ct]⟩

private def subs (b : List (BLit ℕ)) : List Tm := b.filterMap fun | .sub t => some t | _ => none

-- the five groundings: the index of the rule, the head and the subgoals of the instance, the values of its body
example : (groundings 40 prog chart).map (fun p => p.1.map fun g => (g.1, g.2.1.head, subs g.2.1.body, g.2.2)) =
    some [(0, edge (ct "a") (ct "b"), [], [2]), (1, edge (ct "b") (ct "c"), [], [3]),
      (2, path (ct "a") (ct "b"), [edge (ct "a") (ct "b")], [2]), (2, path (ct "b") (ct "c"), [edge (ct "b") (ct "c")], [3]),
      (3, path (ct "a") (ct "c"), [path (ct "a") (ct "b"), edge (ct "b") (ct "c")], [2, 3])] := by decide +kernel
example : (groundings 40 prog chart).map (fun p => p.2) = some .done := by decide +kernel

private theorem runs : ∃ I, instantiate 40 prog chart = some I ∧ I.length = 5 := by
  have h : (instantiate 40 prog chart).map List.length = some 5 := by decide +kernel
  rw [Option.map_eq_some_iff] at h
  exact h

private theorem chart_fix : ∀ x, value chart x = rhs prog (value chart) x := by
  have h : (stepF cfg 40 chart).map (fun p => (p.2, decide (p.1 = chart))) = some (.done, true) := by decide +kernel
  rw [Option.map_eq_some_iff] at h
  obtain ⟨⟨q, sig⟩, e, h⟩ := h
  simp only [Prod.mk.injEq, decide_eq_true_eq] at h
  obtain ⟨rfl, rfl⟩ := h
  exact (step_value (g := cfg) (by simp [cfg]) (fun r h => (prog_ok r h).1) chart_ok e).2

-- the hypotheses of C69_rounds hold: the ground program of five rules has the same third iterate
example : ∃ I, instantiate 40 prog chart = some I ∧ ∀ n x, iter I n x = iter prog n x := by
  obtain ⟨I, e, _⟩ := runs
  exact ⟨I, e, C69_rounds (fun k => Nat.zero_le k) chart_ok (fun r h => (prog_ok r h).1)
    (fixpoint_closed (fun k => Nat.zero_le k) (fun r h => (prog_ok r h).1) chart_fix) e⟩

-- outside the chart the two programs differ: with `path(a,d)` in the valuation, only `prog` uses it
private def small : Dict Tm ℕ := [(edge (ct "a") (ct "b"), 2)]
example : (instantiate 40 prog small).map (fun I => I.map fun r => r.head) =
    some [edge (ct "a") (ct "b"), edge (ct "b") (ct "c"), path (ct "a") (ct "b")] := by decide +kernel

end Examples

end Instantiate
end Verif
