/-
Property C64: `scc_solver` (SccSolver.lean).
-/
import Verif.SccSolver
import Verif.LinSolveThm
import Verif.TarjanThm
import Verif.SlashRun
import Verif.GeneralizeThm

set_option linter.unusedSectionVars false
set_option linter.unusedSimpArgs false

namespace Verif
namespace SccSolver
open Tm Heap
open Solver
open Sem (TV)
open LinSolve (boolRule boolLit mem_bool mem_bool_sub mem_bool_eq bool_gsub bool_safe bool_inRule)
open Unfold (isInput)
variable {K : Type} [Semiring K]

/-! ### Specification -/

/-- the instance `θ` of the rule applies when the items in `D` hold -/
structure Fires (D : Tm → Prop) (r : SRule K) (θ : Nat → Tm) : Prop where
  gs : θ ∈ GSub r
  sub : ∀ t, BLit.sub t ∈ r.body → D (t.sub θ)
  eq : ∀ x y, BLit.eq x y ∈ r.body → x.sub θ = y.sub θ
  cmp : ∀ o x y, BLit.cmp o x y ∈ r.body → o (x.sub θ) (y.sub θ) = true

/-- the items that can be derived (constants are ignored) -/
inductive Der (rules : List (SRule K)) : Tm → Prop
  | mk {r θ} : r ∈ rules → θ ∈ GSub r → (∀ t, BLit.sub t ∈ r.body → Der rules (t.sub θ)) →
      (∀ x y, BLit.eq x y ∈ r.body → x.sub θ = y.sub θ) → (∀ o x y, BLit.cmp o x y ∈ r.body → o (x.sub θ) (y.sub θ) = true) →
      Der rules (r.head.sub θ)

theorem Fires.der {rules : List (SRule K)} {r : SRule K} {θ : Nat → Tm} (hr : r ∈ rules) (h : Fires (Der rules) r θ) :
    Der rules (r.head.sub θ) := .mk hr h.gs h.sub h.eq h.cmp

/-- `x` is an item of an input relation -/
def Exo (inputs : List Tm) (x : Tm) : Prop := ∃ i ∈ inputs, InstanceOf x i

/-- `x` is an instance of an output declaration whose body holds -/
def IsOut (rules : List (SRule K)) (outs : List (SRule TV)) (x : Tm) : Prop :=
  ∃ o ∈ outs, ∃ τ : Nat → Tm, (∀ t, BLit.sub t ∈ o.body → Der rules (t.sub τ)) ∧ (∀ x y, BLit.eq x y ∈ o.body → x.sub τ = y.sub τ) ∧
    (∀ p x y, BLit.cmp p x y ∈ o.body → p (x.sub τ) (y.sub τ) = true) ∧ o.head.sub τ = x

/-- the items on which the outputs depend, through derivable instances of the rules, stopping at the inputs -/
inductive Wanted (rules : List (SRule K)) (inputs : List Tm) (outs : List (SRule TV)) : Tm → Prop
  | out {x} : IsOut rules outs x → Ground x → Wanted rules inputs outs x
  | dep {r θ t} : Wanted rules inputs outs (r.head.sub θ) → ¬ Exo inputs (r.head.sub θ) → r ∈ rules → Fires (Der rules) r θ →
      BLit.sub t ∈ r.body → ¬ Exo inputs (t.sub θ) → Wanted rules inputs outs (t.sub θ)

/-! ### What is pushed -/

/-- from `s` to `s'` only items in `T` have been pushed -/
structure Pushes (prio : Option (Tm → Option Int)) (T : Tm → Prop) (s s' : Chg K) : Prop where
  change : ∀ x ∈ Dict.keys s'.change, x ∈ Dict.keys s.change ∨ T x
  agenda : ∀ x q, s'.agenda.get x = some q → s.agenda.get x = some q ∨ (T x ∧ ∀ p, prio = some p → p x = some q)

theorem Pushes.refl (prio) (T : Tm → Prop) (s : Chg K) : Pushes prio T s s := ⟨fun _ h => .inl h, fun _ _ h => .inl h⟩

theorem Pushes.trans {prio} {T : Tm → Prop} {s s1 s2 : Chg K} (h : Pushes prio T s s1) (h' : Pushes prio T s1 s2) : Pushes prio T s s2 := by
  constructor
  · intro x hx
    rcases h'.change x hx with h1 | h1
    · exact h.change x h1
    · exact .inr h1
  · intro x q hx
    rcases h'.agenda x q hx with h1 | h1
    · exact h.agenda x q h1
    · exact .inr h1

theorem Pushes.mono {prio} {T T' : Tm → Prop} {s s1 : Chg K} (h : Pushes prio T s s1) (hT : ∀ x, T x → T' x) : Pushes prio T' s s1 :=
  ⟨fun x hx => (h.change x hx).imp_right (hT x), fun x q hx => (h.agenda x q hx).imp_right fun a => ⟨hT x a.1, a.2⟩⟩

theorem update_pushes {prio} {f : Nat} {item : Tm} {c : K} {h : Heap} {s h' s'}
    (e : update prio f item c h s = some (h', s', .done)) : Pushes prio (fun x => x = item.sub (res h)) s s' := by
  unfold update at e
  split at e
  · simp at e
  · rename_i t eg ed
    have hd := deref_eq_sub ed
    split at e
    · simp only [Option.some.injEq, Prod.mk.injEq, and_true] at e
      obtain ⟨_, rfl⟩ := e
      exact ⟨fun _ h => .inl h, fun _ _ h => .inl h⟩
    · rename_i p hp
      simp only [Option.some.injEq, Prod.mk.injEq, and_true] at e
      obtain ⟨_, rfl⟩ := e
      constructor
      · intro x hx
        rcases (mem_keys_set _ _ _ _).1 hx with rfl | hx
        · exact .inr hd
        · exact .inl hx
      · intro x q hx
        simp only [Dict.get_set] at hx
        split at hx
        · rename_i htx
          subst htx
          simp only [Option.some.injEq] at hx
          subst hx
          refine .inr ⟨hd, fun p' hp' => ?_⟩
          subst hp'
          exact hp
        · exact .inl hx
  · simp at e

theorem calls_pushes {α : Type} {prio} {k : α → Body (Chg K)} {T : Tm → Prop} {L : List (α × Heap)} {s s' : Chg K}
    (h : RunCalls k L s s') (hk : ∀ p ∈ L, ∀ s s', k p.1 p.2 s = some (p.2, s', .done) → Pushes prio T s s') : Pushes prio T s s' := by
  induction h with
  | nil => exact .refl _ _ _
  | cons e _ ih => exact (hk _ List.mem_cons_self _ _ e).trans (ih fun p hp => hk p (by simp [hp]))

theorem initRule_pushes {g : Solver.Cfg K} {f : Nat} {chart : Dict Tm K} {cand : Tm → List Tm} {r : SRule K} {h' : Heap} {s s' : Chg K}
    (hch : ∀ x ∈ Dict.keys chart, Ground x) (hc : CandOk chart cand) (hr : Safe r)
    (e : initRule g f chart cand r noHeap s = some (h', s', .done)) :
    Pushes g.prio (fun x => ∃ θ ∈ Sat chart r, r.head.sub θ = x) s s' := by
  have hrest : ∀ P : List K, Restores (fun h s => match multiple g.inf f h r with
      | none => none
      | some m => update g.prio f r.head (P.foldl (· * ·) 1 * m) h s) := by
    intro P h s h' s' sig e
    simp only at e
    split at e
    · simp at e
    · exact update_restores _ _ _ _ _ e
  obtain ⟨L, hL, hrun⟩ := join_spec hrest hch hc r.body hr.fn [] _ _ _ _ good_noHeap e
  refine calls_pushes hrun ?_
  intro p hp s s' e
  simp only [List.nil_append] at e
  split at e
  · simp at e
  · have hs := (hL.sound p hp _ (hL.good p hp).respects_res).2
    refine (update_pushes e).mono ?_
    rintro x rfl
    exact ⟨_, ⟨restr_mem hch hr.bnd hs, sat_sub (restr_sat hs)⟩, restr_head⟩

theorem drive_pushes {g : Solver.Cfg K} {f : Nat} {chart : Dict Tm K} {cand : Tm → List Tm} {a : Tm} {old Δ : K}
    (hch : ∀ x ∈ Dict.keys chart, Ground x) (hc : CandOk chart cand) (ha : a ∈ Dict.keys chart) {T : Tm → Prop} :
    ∀ (ds : List (SRule K × Nat × Tm)), (∀ d ∈ ds, Safe d.1 ∧ d.1.body[d.2.1]? = some (.sub d.2.2) ∧
        ∀ θ ∈ Sat chart d.1, d.2.2.sub θ = a → T (d.1.head.sub θ)) → ∀ s h' s',
      forEach ds (fun d => unifyF f a d.2.2 (joinF f chart cand d.1.body [] fun P h s =>
        match deltaProd f h a d.2.1 old Δ d.1.body P 0 1 with
        | none => none
        | some c => update g.prio f d.1.head c h s)) noHeap s = some (h', s', .done) → Pushes g.prio T s s' := by
  have hag := hch a ha
  intro ds
  induction ds with
  | nil =>
    intro _ s h' s' e
    simp only [forEach, Option.some.injEq, Prod.mk.injEq, and_true] at e
    obtain ⟨_, rfl⟩ := e
    exact .refl _ _ _
  | cons d ds ih =>
    intro hds s h' s' e
    obtain ⟨hr, hdi, hT⟩ := hds d (by simp)
    obtain ⟨hi, hdi⟩ := List.getElem?_eq_some_iff.1 hdi
    have hdm : BLit.sub d.2.2 ∈ d.1.body := hdi ▸ List.getElem_mem hi
    obtain ⟨h1, s1, e1, e2⟩ := forEach_cons_done e
    have hrest : ∀ P : List K, Restores (fun h s => match deltaProd f h a d.2.1 old Δ d.1.body P 0 1 with
        | none => none
        | some c => update g.prio f d.1.head c h s) := by
      intro P h s h' s' sig e
      simp only at e
      split at e
      · simp at e
      · exact update_restores _ _ _ _ _ e
    obtain ⟨rfl, hu⟩ := unify_done good_noHeap (joinF_restores hrest _ _) e1
    refine .trans ?_ (ih (fun d hd => hds d (by simp [hd])) s1 h' s' e2)
    rcases hu with ⟨hf, rfl⟩ | ⟨h2, g1, g2, e3⟩
    · exact .refl _ _ _
    · obtain ⟨L, hL, hrun⟩ := join_spec hrest hch hc d.1.body hr.fn [] _ _ _ _ g1 e3
      refine calls_pushes hrun ?_
      intro p hp s s' e
      simp only [List.nil_append] at e
      split at e
      · simp at e
      · have hs := (hL.sound p hp _ (hL.good p hp).respects_res).2
        have hda : d.2.2.sub (res p.2) = a := by
          have := ((g2 _).1 (hL.sound p hp _ (hL.good p hp).respects_res).1).2
          rw [Chart.sub_ground hag] at this
          exact this.symm
        refine (update_pushes e).mono ?_
        rintro x rfl
        have := hT _ ⟨restr_mem hch hr.bnd hs, sat_sub (restr_sat hs)⟩ (by rw [restr_sub hdm, hda])
        rwa [restr_head] at this

/-- an instance satisfied by a chart of derivable items applies -/
theorem sat_fires {chart : Dict Tm K} {r : SRule K} {θ : Nat → Tm} (h : θ ∈ Sat chart r) : Fires (· ∈ Dict.keys chart) r θ := by
  refine ⟨h.1, fun t ht => ?_, fun x y hz => ?_, fun o x y hz => ?_⟩
  · obtain ⟨v, hv⟩ := h.2 _ ht
    exact (Dict.mem_keys_iff_get _ _).2 ⟨v, hv⟩
  · obtain ⟨v, hv⟩ := h.2 _ hz
    exact hv.1
  · obtain ⟨v, hv⟩ := h.2 _ hz
    exact hv.1

theorem fires_sat {chart : Dict Tm K} {r : SRule K} {θ : Nat → Tm} (h : Fires (· ∈ Dict.keys chart) r θ) : θ ∈ Sat chart r := by
  refine ⟨h.gs, fun z hz => ?_⟩
  cases z with
  | val k => exact ⟨k, rfl⟩
  | sub t => obtain ⟨v, hv⟩ := (Dict.mem_keys_iff_get _ _).1 (h.sub t hz); exact ⟨v, hv⟩
  | eq x y => exact ⟨1, h.eq _ _ hz, rfl⟩
  | cmp o x y => exact ⟨1, h.cmp _ _ _ hz, rfl⟩

theorem Fires.mono {D D' : Tm → Prop} {r : SRule K} {θ : Nat → Tm} (h : Fires D r θ) (hD : ∀ x, D x → D' x) : Fires D' r θ :=
  ⟨h.gs, fun t ht => hD _ (h.sub t ht), h.eq, h.cmp⟩

/-- what one iteration of the agenda loop does -/
theorem pop_pushes {g : Solver.Cfg K} (hr : ∀ r ∈ g.rules, Safe r) {D : List (Tm × K)} {st st' : St K} (hi : SInv g D st) {f : Nat} {cand}
    (hc : LawfulCand cand) {a : Tm} (hag : a ∈ Dict.keys st.chg.agenda) (e : popF g f cand st a = some (st', .done)) :
    (∀ x, x ≠ a → st'.chart.get x = st.chart.get x) ∧ (∀ x ∈ Dict.keys st'.chart, x = a ∨ x ∈ Dict.keys st.chart) ∧
    Pushes g.prio (fun x => a ∈ Dict.keys st'.chart ∧ ∃ r ∈ g.rules, ∃ θ ∈ Sat st'.chart r, (∃ t, BLit.sub t ∈ r.body ∧ t.sub θ = a) ∧ r.head.sub θ = x)
      ⟨st.chg.change.del a, st.chg.agenda.del a, st.chg.pushes⟩ st'.chg := by
  have hac := (hi.chg.ag a).1 hag
  obtain ⟨Δ, hΔ⟩ := (Dict.mem_keys_iff_get _ _).1 hac
  unfold popF at e
  simp only [hΔ] at e
  split at e
  · simp only [Option.some.injEq, Prod.mk.injEq, and_true] at e
    subst e
    exact ⟨fun _ _ => rfl, fun x hx => .inr hx, .refl _ _ _⟩
  · split at e
    · simp at e
    · rename_i h1 s1 sig hd
      simp only [Option.some.injEq, Prod.mk.injEq] at e
      obtain ⟨rfl, rfl⟩ := e
      have hak : a ∈ Dict.keys (st.chart.set a ((st.chart.get a).getD 0 + Δ)) := (mem_keys_set _ _ _ _).2 (.inl rfl)
      have hch : ∀ x ∈ Dict.keys (st.chart.set a ((st.chart.get a).getD 0 + Δ)), Ground x := by
        intro x hx
        rcases (mem_keys_set _ _ _ _).1 hx with rfl | hx
        · exact hi.chg.ground _ hac
        · exact hi.ground x hx
      refine ⟨fun x hx => by simp [Dict.get_set, Ne.symm hx], fun x hx => (mem_keys_set _ _ _ _).1 hx, ?_⟩
      have hwf : Dict.WF (st.chart.set a ((st.chart.get a).getD 0 + Δ)) := Dict.WF.set hi.wf _ _
      refine drive_pushes hch (fun c as => hc _ c as hwf hch) hak (drivers g.rules a) ?_ _ _ _ hd
      intro d hd
      obtain ⟨r, hrm, hd⟩ := List.mem_flatMap.1 hd
      obtain ⟨rfl, hb⟩ := driver_getElem hd
      refine ⟨hr _ hrm, hb, fun θ hθ hθa => ⟨hak, d.1, hrm, θ, hθ, ⟨_, List.mem_of_getElem? hb, hθa⟩, rfl⟩⟩

/-- everything a solver without further data ever holds is derivable -/
theorem run_der {g : Solver.Cfg K} (hr : ∀ r ∈ g.rules, Safe r) {D : List (Tm × K)} {st : St K} (h : Run g D st)
    (hD : D = []) : (∀ x ∈ Dict.keys st.chart, Der g.rules x) ∧ ∀ x ∈ Dict.keys st.chg.change, Der g.rules x := by
  induction h with
  | empty => simp [St.empty]
  | load => simp at hD
  | @init D st f cand i r h' s' hrun _ hri hc e ih =>
    obtain ⟨h1, h2⟩ := ih hD
    refine ⟨h1, ?_⟩
    have hi := sinv_run hr hrun
    have hrm := List.mem_of_getElem? hri
    have := initRule_pushes hi.ground (fun c as => hc _ c as hi.wf hi.ground) (hr r hrm) e
    intro x hx
    rcases this.change x hx with hx | ⟨θ, hθ, rfl⟩
    · exact h2 x hx
    · exact ((sat_fires hθ).mono h1).der hrm
  | @pop D st st' hrun hall hp ih =>
    obtain ⟨h1, h2⟩ := ih hD
    have hi := sinv_run hr hrun
    obtain ⟨f, cand, a, hc, ha, e⟩ := hp
    obtain ⟨_, k1, k2⟩ := pop_pushes hr hi hc ha e
    have h3 : ∀ x ∈ Dict.keys st'.chart, Der g.rules x := by
      intro x hx
      rcases k1 x hx with rfl | hx
      · exact h2 _ ((hi.chg.ag _).1 ha)
      · exact h1 x hx
    refine ⟨h3, fun x hx => ?_⟩
    rcases k2.change x hx with hx | ⟨_, r, hrm, θ, hθ, _, rfl⟩
    · exact h2 x ((mem_keys_del _ _ _).1 hx).1
    · exact ((sat_fires hθ).mono h3).der hrm

/-! ### Pass 1 -/

theorem pass1_true {rules : List (SRule TV)} {D : List (Tm × TV)} {st : St TV} (h : Run (cfg1 rules) D st) :
    ∀ x v, st.chart.get x = some v → v = 1 := by
  induction h with
  | empty => simp [St.empty]
  | load _ _ ih => exact ih
  | init _ _ _ _ _ ih => exact ih
  | @pop D st st' _ _ hp ih =>
    obtain ⟨f, cand, a, _, _, e⟩ := hp
    unfold popF at e
    split at e
    · simp at e
    · rename_i Δ hΔ
      simp only at e
      split at e
      · simp only [Option.some.injEq, Prod.mk.injEq, and_true] at e
        subst e; exact ih
      · rename_i hne
        split at e
        · simp at e
        · simp only [Option.some.injEq, Prod.mk.injEq] at e
          obtain ⟨rfl, _⟩ := e
          intro x v hx
          simp only [Dict.get_set] at hx
          split at hx
          · simp only [Option.some.injEq] at hx
            rcases LinSolve.tv_cases Δ with h | h
            · subst h; simp [cfg1] at hne
            · subst h; rw [← hx]; exact LinSolve.tv_add_one _
          · exact ih x v hx

/-- a Boolean rule without constants -/
def NoVal (r : SRule TV) : Prop := ∀ k, BLit.val k ∉ r.body

/-- The chart of pass 1 holds exactly the derivable items. -/
theorem pass1_der {rules : List (SRule TV)} (hr : ∀ r ∈ rules, Safe r) (hv : ∀ r ∈ rules, NoVal r) {st : St TV}
    (h : ForwardChaining (cfg1 rules) St.empty st) (x : Tm) : x ∈ Dict.keys st.chart ↔ Der rules x := by
  classical
  obtain ⟨h1, h2, h3⟩ := forward_run h
  constructor
  · exact (run_der hr h1 rfl).1 x
  · intro hx
    induction hx with
    | @mk r θ hrm hθ _ heq hcmp ih =>
      have hfix := run_fixpoint (g := cfg1 rules) hr (by intro a b h; simpa [cfg1] using h) h1 h2 h3 (x := r.head.sub θ) (by simp [Kept, cfg1])
      have hone : ∀ x ∈ Dict.keys st.chart, value st.chart x = 1 := by
        intro x hx
        obtain ⟨v, hv⟩ := (Dict.mem_keys_iff_get _ _).1 hx
        have := pass1_true h1 x v hv
        subst this
        simp [value, hv]
      have a1 : instAt r (value st.chart) (r.head.sub θ) θ = 1 := by
        unfold instAt
        rw [if_pos ⟨hθ, rfl⟩]
        unfold instVal
        refine List.prod_eq_one ?_
        intro a ha
        obtain ⟨z, hzm, rfl⟩ := List.mem_map.1 ha
        cases z with
        | val k => exact absurd hzm (hv r hrm k)
        | sub t => exact hone _ (ih t hzm)
        | eq x y => simpa [litVal] using heq x y hzm
        | cmp o x y => simp only [litVal]; rw [if_pos (hcmp o x y hzm)]
      have a2 : contrib r (value st.chart) (r.head.sub θ) = 1 := by
        have hfin := C23_finite (hr r hrm) st.chart (r.head.sub θ)
        unfold contrib
        rw [finsum_eq_sum _ hfin, ← Finset.add_sum_erase (a := θ) _ _ (by
          rw [Set.Finite.mem_toFinset, Function.mem_support, a1]; decide), a1]
        exact LinSolve.tv_one_add _
      have a3 : value st.chart (r.head.sub θ) = 1 := by
        rw [hfix]
        simp only [dataAt, List.map_nil, List.sum_nil, zero_add]
        exact LinSolve.list_sum_true (List.mem_map.2 ⟨r, hrm, a2⟩)
      by_contra hn
      have : Dict.get st.chart (r.head.sub θ) = none := (Dict.get_eq_none_iff _ _).2 hn
      rw [value, this] at a3
      exact absurd a3 (by decide)

/-! ### Dependencies -/

theorem ground_variant {x y : Tm} (hx : Ground x) (h : Variant x y) : y = x := by
  obtain ⟨ρ, _, rfl⟩ := h
  exact Chart.sub_ground hx _

theorem canon_form {cv : Nat → Nat} (hcv : Function.Injective cv) {h : Heap} (hg : Good h) {f : Nat} {b y : Tm}
    (e : canonF cv h f b = some y) : Variant (b.sub (res h)) y ∧ ∀ n ∈ vars y, ∃ i, n = cv i := by
  obtain ⟨f1, e1⟩ := hg.deref b
  have hR := deref_resolves e1
  refine ⟨(C07_form hcv hR e).1, ?_⟩
  unfold canonF at e
  obtain ⟨r, e2, rfl⟩ := Option.map_eq_some_iff.1 e
  rw [renF_eq hR e2]
  exact canonP_vars _

theorem exo_ground {f : Nat} {q : Tm} (hq : Ground q) {inputs : List Tm} {b : Bool}
    (e : isInput f q noHeap inputs = some b) : b = true ↔ Exo inputs q := by
  rw [Slash.isInput_heap good_noHeap e]
  constructor
  · rintro ⟨i, hi, τ, _, h⟩
    exact ⟨i, hi, τ, by rw [h, Chart.sub_ground hq]⟩
  · rintro ⟨i, hi, τ, h⟩
    exact ⟨i, hi, τ, respects_noHeap _, by rw [h, Chart.sub_ground hq]⟩

theorem addDeps_spec {c : Cfg} (hcv : Function.Injective c.cv) {h : Heap} (hg : Good h) : ∀ (bs : List (BLit TV)) (out : List Tm) h' out',
    (∀ b, BLit.sub b ∈ bs → Ground (b.sub (res h))) → addDeps c bs h out = some (h', out', .done) →
    ∃ l, out' = out ++ l ∧ ∀ y, y ∈ l ↔ ∃ b, BLit.sub b ∈ bs ∧ b.sub (res h) = y ∧ ¬ Exo c.inputs y := by
  intro bs
  induction bs with
  | nil =>
    intro out h' out' _ e
    simp only [addDeps, Option.some.injEq, Prod.mk.injEq, and_true] at e
    exact ⟨[], by simp [e.2], by simp⟩
  | cons z bs ih =>
    intro out h' out' hgr e
    cases z with
    | sub b =>
      have hb := hgr b (by simp)
      have hgr' : ∀ b, BLit.sub b ∈ bs → Ground (b.sub (res h)) := fun b hb => hgr b (by simp [hb])
      simp only [addDeps] at e
      split at e
      · simp at e
      · rename_i b' ed
        have hd := deref_eq_sub ed
        subst hd
        split at e
        · simp at e
        · rename_i ei
          have hex := (exo_ground hb ei).1 rfl
          obtain ⟨l, h1, h2⟩ := ih _ _ _ hgr' e
          refine ⟨l, h1, fun y => ?_⟩
          rw [h2]
          constructor
          · rintro ⟨b1, k1, k2⟩; exact ⟨b1, by simp [k1], k2⟩
          · rintro ⟨b1, k1, k2, k3⟩
            rcases List.mem_cons.1 k1 with k1 | k1
            · cases k1; subst k2; exact absurd hex k3
            · exact ⟨b1, k1, k2, k3⟩
        · rename_i ei
          have hex : ¬ Exo c.inputs (b.sub (res h)) := fun h => by simpa using (exo_ground hb ei).2 h
          split at e
          · simp at e
          · rename_i t ec
            have ht := ground_variant hb (canon_form hcv hg ec).1
            subst ht
            obtain ⟨l, h1, h2⟩ := ih _ _ _ hgr' e
            refine ⟨b.sub (res h) :: l, by rw [h1]; simp, fun y => ?_⟩
            rw [List.mem_cons, h2]
            constructor
            · rintro (rfl | ⟨b1, k1, k2⟩)
              · exact ⟨b, by simp, rfl, hex⟩
              · exact ⟨b1, by simp [k1], k2⟩
            · rintro ⟨b1, k1, k2, k3⟩
              rcases List.mem_cons.1 k1 with k1 | k1
              · cases k1; exact .inl k2.symm
              · exact .inr ⟨b1, k1, k2, k3⟩
    | val k =>
      obtain ⟨l, h1, h2⟩ := ih _ _ _ (fun b hb => hgr b (by simp [hb])) (by simpa only [addDeps] using e)
      exact ⟨l, h1, fun y => by rw [h2]; simp⟩
    | eq x y =>
      obtain ⟨l, h1, h2⟩ := ih _ _ _ (fun b hb => hgr b (by simp [hb])) (by simpa only [addDeps] using e)
      exact ⟨l, h1, fun y => by rw [h2]; simp⟩
    | cmp o x y =>
      obtain ⟨l, h1, h2⟩ := ih _ _ _ (fun b hb => hgr b (by simp [hb])) (by simpa only [addDeps] using e)
      exact ⟨l, h1, fun y => by rw [h2]; simp⟩

theorem addDeps_restores {c : Cfg} : ∀ bs : List (BLit TV), Restores (addDeps c bs) := by
  intro bs
  induction bs with
  | nil => intro h s h' s' sig e; simp [addDeps] at e; exact e.1.symm
  | cons z bs ih =>
    intro h s h' s' sig e
    cases z with
    | sub b =>
      simp only [addDeps] at e
      split at e
      · simp at e
      · split at e
        · simp at e
        · exact ih _ _ _ _ _ e
        · split at e
          · simp at e
          · exact ih _ _ _ _ _ e
    | val k => exact ih _ _ _ _ _ e
    | eq x y => exact ih _ _ _ _ _ e
    | cmp o x y => exact ih _ _ _ _ _ e

/-- runs of a consumer that appends to a list -/
theorem calls_append {α : Type} {k : α → Body (List Tm)} {P : α × Heap → Tm → Prop} {L : List (α × Heap)} {s s' : List Tm}
    (h : RunCalls k L s s') (hk : ∀ p ∈ L, ∀ s s', k p.1 p.2 s = some (p.2, s', .done) → ∃ l, s' = s ++ l ∧ ∀ y, y ∈ l ↔ P p y) :
    ∃ l, s' = s ++ l ∧ ∀ y, y ∈ l ↔ ∃ p ∈ L, P p y := by
  induction h with
  | nil => exact ⟨[], by simp, by simp⟩
  | cons e _ ih =>
    obtain ⟨l1, rfl, h1⟩ := hk _ List.mem_cons_self _ _ e
    obtain ⟨l2, rfl, h2⟩ := ih fun p hp => hk p (by simp [hp])
    refine ⟨l1 ++ l2, by simp, fun y => ?_⟩
    rw [List.mem_append, h1, h2]
    simp

theorem calls_each {α S : Type} {k : α → Body S} {L : List (α × Heap)} {s s' : S} (h : RunCalls k L s s') :
    ∀ p ∈ L, ∃ s1 s2, k p.1 p.2 s1 = some (p.2, s2, .done) := by
  induction h with
  | nil => simp
  | cons e _ ih =>
    intro p hp
    rcases List.mem_cons.1 hp with rfl | hp
    · exact ⟨_, _, e⟩
    · exact ih p hp

/-- the canonical variables do not occur in the rule -/
def Apart (cv : Nat → Nat) (r : SRule TV) : Prop := ∀ i, ¬ InRule r (cv i)

theorem depsRules_spec {c : Cfg} (hcv : Function.Injective c.cv) (hr : ∀ r ∈ c.rules1, Safe r) (hap : ∀ r ∈ c.rules1, Apart c.cv r)
    {chart : Dict Tm TV} {cand : Tm → List Tm} (hch : ∀ x ∈ Dict.keys chart, Ground x) (hc : CandOk chart cand)
    {x : Tm} (hx : ∀ n ∈ vars x, ∃ i, n = c.cv i) {out : List Tm} (e : depsRules c chart cand x = some out) :
      ∀ y, y ∈ out ↔ ∃ r ∈ c.rules1, ∃ θ ∈ Sat chart r, InstanceOf (r.head.sub θ) x ∧ ∃ b, BLit.sub b ∈ r.body ∧ b.sub θ = y ∧ ¬ Exo c.inputs y := by
    unfold depsRules at e
    split at e
    · rename_i h' out' ef
      simp only [Option.some.injEq] at e
      subst e
      have key : ∀ (rs : List (SRule TV)) s h' s', (∀ r ∈ rs, r ∈ c.rules1) →
          forEach rs (fun r => unifyF c.f r.head x (joinF c.f chart cand r.body [] fun _ => addDeps c r.body)) noHeap s = some (h', s', .done) →
          ∃ l, s' = s ++ l ∧ ∀ y, y ∈ l ↔ ∃ r ∈ rs, ∃ θ ∈ Sat chart r, InstanceOf (r.head.sub θ) x ∧ ∃ b, BLit.sub b ∈ r.body ∧ b.sub θ = y ∧ ¬ Exo c.inputs y := by
        intro rs
        induction rs with
        | nil =>
          intro s h' s' _ e
          simp only [forEach, Option.some.injEq, Prod.mk.injEq, and_true] at e
          exact ⟨[], by simp [e.2], by simp⟩
        | cons r rs ih =>
          intro s h' s' hm e
          obtain ⟨h1, s1, e1, e2⟩ := forEach_cons_done e
          have hrm := hm r (by simp)
          have hsafe := hr r hrm
          obtain ⟨rfl, hu⟩ := unify_done good_noHeap (joinF_restores (fun _ => addDeps_restores _) _ _) e1
          obtain ⟨l2, rfl, k2⟩ := ih s1 _ _ (fun r h => hm r (by simp [h])) e2
          have first : ∃ l, s1 = s ++ l ∧ ∀ y, y ∈ l ↔ ∃ θ ∈ Sat chart r, InstanceOf (r.head.sub θ) x ∧ ∃ b, BLit.sub b ∈ r.body ∧ b.sub θ = y ∧ ¬ Exo c.inputs y := by
            -- a substitution for the rule and one for `x` can be joined
            have hjoin : ∀ θ σ : Nat → Tm, x.sub σ = r.head.sub θ → ∃ τ : Nat → Tm, r.head.sub τ = x.sub τ ∧ ∀ n, InRule r n → τ n = θ n := by
              classical
              intro θ σ hσ
              refine ⟨fun n => if InRule r n then θ n else σ n, ?_, fun n hn => by simp [hn]⟩
              rw [sub_congr (σ := fun n => if InRule r n then θ n else σ n) (τ := θ) (t := r.head) (fun n hn => by simp [show InRule r n from .inl hn]),
                sub_congr (σ := fun n => if InRule r n then θ n else σ n) (τ := σ) (t := x) (fun n hn => by
                  obtain ⟨i, rfl⟩ := hx n hn
                  simp [hap r hrm i]), hσ]
            rcases hu with ⟨hf, rfl⟩ | ⟨h2, g1, g2, e3⟩
            · refine ⟨[], by simp, fun y => ?_⟩
              simp only [List.not_mem_nil, false_iff]
              rintro ⟨θ, _, ⟨σ, hσ⟩, _⟩
              obtain ⟨τ, hτ, _⟩ := hjoin θ σ hσ
              exact hf τ (respects_noHeap _) hτ
            · obtain ⟨L, hL, hrun⟩ := join_spec (fun _ => addDeps_restores _) hch hc r.body hsafe.fn [] _ _ _ _ g1 e3
              obtain ⟨l, rfl, hl⟩ := calls_append (P := fun p y => ∃ b, BLit.sub b ∈ r.body ∧ b.sub (res p.2) = y ∧ ¬ Exo c.inputs y) hrun (by
                intro p hp s s' e
                exact addDeps_spec hcv (hL.good p hp) _ _ _ _ (fun b hb => ground_sub fun n hn =>
                  yield_ground hch hsafe.bnd hL hp (.inr ⟨_, hb, hn⟩)) e)
              refine ⟨l, rfl, fun y => ?_⟩
              rw [hl]
              constructor
              · rintro ⟨p, hp, b, hb, rfl, hex⟩
                have hs := hL.sound p hp _ (hL.good p hp).respects_res
                refine ⟨restr r (res p.2), ⟨restr_mem hch hsafe.bnd hs.2, sat_sub (restr_sat hs.2)⟩, ⟨res p.2, ?_⟩, b, hb, restr_sub hb, hex⟩
                rw [restr_head]
                exact ((g2 _).1 hs.1).2.symm
              · rintro ⟨θ, hθ, ⟨σ, hσ⟩, b, hb, rfl, hex⟩
                obtain ⟨τ, hτ, hag⟩ := hjoin θ σ hσ
                obtain ⟨vs, hvs⟩ := forall2_of_sat hθ.2
                have hvs' : List.Forall₂ (LitSat chart τ) r.body vs := sat_congr (fun z hz n hn => (hag n (.inr ⟨z, hz, hn⟩)).symm) hvs
                obtain ⟨p, hp, hrp, _⟩ := hL.complete τ vs ((g2 τ).2 ⟨respects_noHeap _, hτ⟩) hvs'
                have hbg : Ground (b.sub (res p.2)) := ground_sub fun n hn => yield_ground hch hsafe.bnd hL hp (.inr ⟨_, hb, hn⟩)
                have : b.sub (res p.2) = b.sub θ := by
                  rw [← sub_eq_of_ground (hL.good p hp) hbg hrp]
                  exact sub_congr fun n hn => hag n (.inr ⟨_, hb, hn⟩)
                exact ⟨p, hp, b, hb, this, hex⟩
          obtain ⟨l1, rfl, k1⟩ := first
          refine ⟨l1 ++ l2, by simp, fun y => ?_⟩
          rw [List.mem_append, k1, k2]
          constructor
          · rintro (h | ⟨r', h1, h2⟩)
            · exact ⟨r, by simp, h⟩
            · exact ⟨r', by simp [h1], h2⟩
          · rintro ⟨r', h1, h2⟩
            rcases List.mem_cons.1 h1 with rfl | h1
            · exact .inl h2
            · exact .inr ⟨r', h1, h2⟩
      obtain ⟨l, rfl, hl⟩ := key c.rules1 [] _ _ (fun _ h => h) ef
      simpa using hl
    · simp at e

/-- `deps(x)` lists the subgoals that are not inputs, of all satisfied instances of rules whose head is an instance of `x`;
nothing if `x` overlaps an input. -/
theorem deps_spec {c : Cfg} (hcv : Function.Injective c.cv) (hr : ∀ r ∈ c.rules1, Safe r) (hap : ∀ r ∈ c.rules1, Apart c.cv r)
    {chart : Dict Tm TV} {cand : Tm → List Tm} (hch : ∀ x ∈ Dict.keys chart, Ground x) (hc : CandOk chart cand)
    {l : List Tm} (hx : ∀ n ∈ vars (.app l), ∃ i, n = c.cv i) {out : List Tm} (e : deps c chart cand (.app l) = some out) :
    (isInput c.f (.app l) noHeap c.inputs = some true ∧ out = []) ∨ (isInput c.f (.app l) noHeap c.inputs = some false ∧
      ∀ y, y ∈ out ↔ ∃ r ∈ c.rules1, ∃ θ ∈ Sat chart r, InstanceOf (r.head.sub θ) (.app l) ∧
        ∃ b, BLit.sub b ∈ r.body ∧ b.sub θ = y ∧ ¬ Exo c.inputs y) := by
  simp only [deps] at e
  split at e
  · simp at e
  · rename_i ei
    simp only [Option.some.injEq] at e
    exact .inl ⟨ei, e.symm⟩
  · rename_i ei
    exact .inr ⟨ei, depsRules_spec hcv hr hap hch hc hx e⟩

/-! ### Outputs -/

theorem canon_restores {c : Cfg} {t : Tm} : Restores (fun h (out : List Tm) => (canonF c.cv h c.f t).map fun y => (h, out ++ [y], Sig.done)) := by
  intro h s h' s' sig e
  obtain ⟨y, _, e⟩ := Option.map_eq_some_iff.1 e
  simp only [Prod.mk.injEq] at e
  exact e.1.symm

/-- an output declaration the solver can handle -/
def OutBody (o : SRule TV) : Prop := ∀ t, BLit.sub t ∈ o.body → ∃ c as, t = .app (.con c :: as)

theorem outputs_spec {c : Cfg} (hcv : Function.Injective c.cv) (ho : ∀ o ∈ c.outs, OutBody o)
    {chart : Dict Tm TV} {cand : Tm → List Tm} (hch : ∀ x ∈ Dict.keys chart, Ground x) (hc : CandOk chart cand)
    {os : List Tm} (e : outputs c chart cand = some os) :
    (∀ y ∈ os, (∀ n ∈ vars y, ∃ i, n = c.cv i) ∧ ∃ o ∈ c.outs, ∃ τ, (∀ z ∈ o.body, ∃ v, LitSat chart τ z v) ∧ Variant (o.head.sub τ) y ∧
      ∀ σ, ∃ τ', (∀ z ∈ o.body, ∃ v, LitSat chart τ' z v) ∧ o.head.sub τ' = y.sub σ) ∧
    ∀ o ∈ c.outs, ∀ τ, (∀ z ∈ o.body, ∃ v, LitSat chart τ z v) → ∃ y ∈ os, InstanceOf (o.head.sub τ) y := by
  unfold outputs at e
  split at e
  · rename_i h' out' ef
    simp only [Option.some.injEq] at e
    subst e
    have key : ∀ (rs : List (SRule TV)) s h' s', (∀ o ∈ rs, o ∈ c.outs) →
        forEach rs (fun o => joinF c.f chart cand o.body [] fun _ h out =>
          (canonF c.cv h c.f o.head).map fun t => (h, out ++ [t], .done)) noHeap s = some (h', s', .done) →
        ∃ l, s' = s ++ l ∧ (∀ y ∈ l, (∀ n ∈ vars y, ∃ i, n = c.cv i) ∧ ∃ o ∈ c.outs, ∃ τ, (∀ z ∈ o.body, ∃ v, LitSat chart τ z v) ∧ Variant (o.head.sub τ) y ∧
      ∀ σ, ∃ τ', (∀ z ∈ o.body, ∃ v, LitSat chart τ' z v) ∧ o.head.sub τ' = y.sub σ) ∧
        ∀ o ∈ rs, ∀ τ, (∀ z ∈ o.body, ∃ v, LitSat chart τ z v) → ∃ y ∈ l, InstanceOf (o.head.sub τ) y := by
      intro rs
      induction rs with
      | nil =>
        intro s h' s' _ e
        simp only [forEach, Option.some.injEq, Prod.mk.injEq, and_true] at e
        exact ⟨[], by simp [e.2], by simp, by simp⟩
      | cons o rs ih =>
        intro s h' s' hm e
        obtain ⟨h1, s1, e1, e2⟩ := forEach_cons_done e
        have hom := hm o (by simp)
        have : h1 = noHeap := joinF_restores (fun _ => canon_restores) _ _ _ _ _ _ _ e1
        subst this
        obtain ⟨l2, rfl, k2, k3⟩ := ih s1 _ _ (fun r h => hm r (by simp [h])) e2
        obtain ⟨L, hL, hrun⟩ := join_spec (fun _ => canon_restores) hch hc o.body (ho o hom) [] _ _ _ _ good_noHeap e1
        obtain ⟨l, rfl, hl⟩ := calls_append (P := fun p y => canonF c.cv p.2 c.f o.head = some y) hrun (by
          intro p hp s s' e
          obtain ⟨y, ey, e⟩ := Option.map_eq_some_iff.1 e
          simp only [Prod.mk.injEq, and_true, true_and] at e
          exact ⟨[y], e.symm, fun y' => by rw [ey]; simp [eq_comm]⟩)
        have hcall : ∀ p ∈ L, ∃ y, canonF c.cv p.2 c.f o.head = some y := by
          intro p hp
          obtain ⟨_, _, e⟩ := calls_each hrun p hp
          obtain ⟨y, ey, _⟩ := Option.map_eq_some_iff.1 e
          exact ⟨y, ey⟩
        refine ⟨l ++ l2, by simp, fun y hy => ?_, fun o' ho' τ hτ => ?_⟩
        · rcases List.mem_append.1 hy with hy | hy
          · obtain ⟨p, hp, ey⟩ := (hl y).1 hy
            obtain ⟨hv, hcvs⟩ := canon_form hcv (hL.good p hp) ey
            refine ⟨hcvs, o, hom, res p.2, sat_sub (hL.sound p hp _ (hL.good p hp).respects_res).2, hv, fun σ => ?_⟩
            obtain ⟨ρ, _, rfl⟩ := hv
            refine ⟨fun n => ((res p.2 n).sub fun n => .var (ρ n)).sub σ, sat_sub (hL.sound p hp _ ?_).2, ?_⟩
            · intro n t hn
              simp only
              rw [(hL.good p hp).respects_res n t hn, Tm.sub_sub, Tm.sub_sub]
              simp only [Tm.sub_sub]
            · simp only [Tm.sub_sub]
          · exact k2 y hy
        · rcases List.mem_cons.1 ho' with rfl | ho'
          · obtain ⟨vs, hvs⟩ := forall2_of_sat hτ
            obtain ⟨p, hp, hrp, _⟩ := hL.complete τ vs (respects_noHeap _) hvs
            obtain ⟨y, ey⟩ := hcall p hp
            obtain ⟨hv, _⟩ := canon_form hcv (hL.good p hp) ey
            refine ⟨y, by simp [(hl y).2 ⟨p, hp, ey⟩], ?_⟩
            obtain ⟨σ, hσ⟩ := hv.symm.instanceOf
            refine ⟨fun n => (σ n).sub τ, ?_⟩
            have := (hL.good p hp).sub_res hrp o'.head
            rw [← this, ← hσ, Tm.sub_sub]
          · obtain ⟨y, hy, h⟩ := k3 o' ho' τ hτ
            exact ⟨y, by simp [hy], h⟩
    obtain ⟨l, rfl, hl1, hl2⟩ := key c.outs [] _ _ (fun _ h => h) ef
    simpa using ⟨hl1, hl2⟩
  · simp at e

/-! ### The support map -/

theorem foldl_set {E : List (Tm × Int)} : ∀ {d : Dict Tm Int}, Dict.WF d → Dict.WF (E.foldl (fun d e => d.set e.1 e.2) d) ∧
    ((∀ k v v', (k, v) ∈ E → (k, v') ∈ E → v = v') → ∀ k v, Dict.get (E.foldl (fun d e => d.set e.1 e.2) d) k = some v ↔
      (k, v) ∈ E ∨ ((∀ v', (k, v') ∉ E) ∧ Dict.get d k = some v)) := by
  induction E with
  | nil => intro d hd; exact ⟨hd, fun _ k v => by simp⟩
  | cons p E ih =>
    intro d hd
    obtain ⟨k0, v0⟩ := p
    obtain ⟨h1, h2⟩ := ih (d := d.set k0 v0) (Dict.WF.set hd _ _)
    refine ⟨h1, fun hu k v => ?_⟩
    rw [List.foldl_cons, h2 (fun k v v' h h' => hu k v v' (by simp [h]) (by simp [h']))]
    simp only [Dict.get_set, List.mem_cons, Prod.mk.injEq, not_or, not_and]
    by_cases hk : k0 = k
    · subst hk
      simp only [if_true, true_and, Option.some.injEq, forall_const, true_implies]
      constructor
      · rintro (h | ⟨_, rfl⟩)
        · exact .inl (.inr h)
        · exact .inl (.inl rfl)
      · rintro ((rfl | h) | ⟨h, _⟩)
        · by_cases hex : ∃ v', (k0, v') ∈ E
          · obtain ⟨v', hv'⟩ := hex
            have := hu k0 v v' (by simp) (by simp [hv'])
            subst this; exact .inl hv'
          · exact .inr ⟨fun v' hv' => hex ⟨v', hv'⟩, rfl⟩
        · exact .inl h
        · exact absurd rfl (h v0).1
    · simp only [if_neg hk]
      have : ¬ (k = k0) := fun h => hk h.symm
      simp [this]

theorem comp_index {L : List (List Tm)} (hL : L.Pairwise fun a b => ∀ x ∈ a, x ∉ b) {i j : Nat} {c c' : List Tm} {k : Tm}
    (h : L[i]? = some c) (h' : L[j]? = some c') (hk : k ∈ c) (hk' : k ∈ c') : i = j := by
  obtain ⟨hi, rfl⟩ := List.getElem?_eq_some_iff.1 h
  obtain ⟨hj, rfl⟩ := List.getElem?_eq_some_iff.1 h'
  rcases Nat.lt_trichotomy i j with hlt | he | hlt
  · exact absurd hk' (List.pairwise_iff_getElem.1 hL i j hi hj hlt k hk)
  · exact he
  · exact absurd hk (List.pairwise_iff_getElem.1 hL j i hj hi hlt k hk')

theorem support_wf (L : List (List Tm)) : Dict.WF (supportMap L) := (foldl_set Dict.WF.nil).1

theorem support_get {L : List (List Tm)} (hL : L.Pairwise fun a b => ∀ x ∈ a, x ∉ b) (k : Tm) (v : Int) :
    (supportMap L).get k = some v ↔ ∃ i : Nat, ∃ c, L[i]? = some c ∧ k ∈ c ∧ v = (i : Int) + 1 := by
  have hmem : ∀ k v, (k, v) ∈ (L.zipIdx.flatMap fun p => p.1.map fun x => (x, (p.2 : Int) + 1)) ↔ ∃ i : Nat, ∃ c, L[i]? = some c ∧ k ∈ c ∧ v = (i : Int) + 1 := by
    intro k v
    simp only [List.mem_flatMap, List.mem_map, Prod.mk.injEq]
    constructor
    · rintro ⟨⟨c, i⟩, h, x, hx, rfl, rfl⟩
      exact ⟨i, c, List.mem_zipIdx_iff_getElem?.1 h, hx, rfl⟩
    · rintro ⟨i, c, h, hk, rfl⟩
      exact ⟨(c, i), List.mem_zipIdx_iff_getElem?.2 h, k, hk, rfl, rfl⟩
  unfold supportMap
  rw [(foldl_set Dict.WF.nil).2, hmem]
  · simp
  · intro k v v' h h'
    obtain ⟨i, c, h1, h2, rfl⟩ := (hmem _ _).1 h
    obtain ⟨j, c', h1', h2', rfl⟩ := (hmem _ _).1 h'
    have : i = j := comp_index hL h1 h1' h2 h2'
    rw [this]

theorem best_spec {f : Nat} {x : Tm} (hx : Ground x) : ∀ {d : Dict Tm Int} {b r : Option Int}, best f x d b = some r →
    (r = none ↔ b = none ∧ ∀ k v, (k, v) ∈ d → ¬ InstanceOf x k) ∧
    ∀ v, r = some v → (b = some v ∨ ∃ k, (k, v) ∈ d ∧ InstanceOf x k) ∧ (∀ u, b = some u → v ≤ u) ∧ ∀ k w, (k, w) ∈ d → InstanceOf x k → v ≤ w := by
  intro d
  induction d with
  | nil =>
    intro b r e
    simp only [best, Option.some.injEq] at e
    subst e
    refine ⟨by simp, fun v hv => ⟨.inl hv, fun u hu => ?_, by simp⟩⟩
    rw [hv] at hu; simp at hu; omega
  | cons p d ih =>
    obtain ⟨k0, v0⟩ := p
    intro b r e
    simp only [best] at e
    split at e
    · simp at e
    · rename_i eu
      have hu : InstanceOf x k0 := by
        obtain ⟨θ, hθ⟩ := (DisjointEst.empty_unifies eu).1 rfl
        exact ⟨θ, by rw [hθ, Chart.sub_ground hx]⟩
      obtain ⟨h1, h2⟩ := ih e
      refine ⟨?_, fun v hv => ?_⟩
      · constructor
        · intro h; simp [h1] at h
          
        · rintro ⟨_, h⟩; exact absurd hu (h k0 v0 (by simp))
      · obtain ⟨a1, a2, a3⟩ := h2 v hv
        have a2 := a2 _ rfl
        refine ⟨?_, fun u hu => ?_, fun k w hk hik => ?_⟩
        · rcases a1 with a1 | ⟨k, hk, hik⟩
          · cases b with
            | none => simp only [Option.some.injEq] at a1; subst a1; exact .inr ⟨k0, by simp, hu⟩
            | some u =>
              simp only [Option.some.injEq] at a1
              rcases min_choice u v0 with h | h
              · left; rw [← a1, h]
              · right; refine ⟨k0, ?_, hu⟩; rw [← a1, h]; simp
          · exact .inr ⟨k, by simp [hk], hik⟩
        · subst hu; exact a2.trans (min_le_left _ _)
        · rcases List.mem_cons.1 hk with h | h
          · simp only [Prod.mk.injEq] at h
            obtain ⟨rfl, rfl⟩ := h
            cases b with
            | none => exact a2
            | some u => exact a2.trans (min_le_right _ _)
          · exact a3 k w h hik
    · rename_i eu
      have hu : ¬ InstanceOf x k0 := by
        rintro ⟨θ, hθ⟩
        have := (DisjointEst.empty_unifies eu).2 ⟨θ, by rw [hθ, Chart.sub_ground hx]⟩
        simp at this
      obtain ⟨h1, h2⟩ := ih e
      refine ⟨?_, fun v hv => ?_⟩
      · rw [h1]
        refine and_congr_right fun _ => ⟨fun h k v hk => ?_, fun h k v hk => h k v (by simp [hk])⟩
        rcases List.mem_cons.1 hk with hk | hk
        · simp only [Prod.mk.injEq] at hk; rw [hk.1]; exact hu
        · exact h k v hk
      · obtain ⟨a1, a2, a3⟩ := h2 v hv
        refine ⟨a1.imp_right fun ⟨k, hk, h⟩ => ⟨k, by simp [hk], h⟩, a2, fun k w hk hik => ?_⟩
        rcases List.mem_cons.1 hk with h | h
        · simp only [Prod.mk.injEq] at h; rw [h.1] at hik; exact absurd hik hu
        · exact a3 k w h hik

/-! ### What pass 1 keeps -/

/-- an output declaration whose instances `lookup` can find: its instances are all ground by its body, or its head has a
constant functor and either overlaps no input or has only inputs as instances -/
def OutOk (inputs : List Tm) (o : SRule TV) : Prop :=
  (∀ n ∈ vars o.head, ∃ t, BLit.sub t ∈ o.body ∧ n ∈ vars t) ∨
  ((∃ c as, o.head = .app (.con c :: as)) ∧ ((∀ τ, ¬ Exo inputs (o.head.sub τ)) ∨ ∀ τ, Ground (o.head.sub τ) → Exo inputs (o.head.sub τ)))

/-- the programs covered by the theorems -/
structure Pre (c : Cfg) : Prop where
  cv : Function.Injective c.cv
  safe : ∀ r ∈ c.rules1, Safe r
  noval : ∀ r ∈ c.rules1, NoVal r
  apart : ∀ r ∈ c.rules1, Apart c.cv r
  apartIn : ∀ i ∈ c.inputs, ∀ n, c.cv n ∉ vars i
  outBody : ∀ o ∈ c.outs, OutBody o
  outOk : ∀ o ∈ c.outs, OutOk c.inputs o

/-- the result of the analysis of the chart of pass 1 -/
structure Sup (c : Cfg) (chart : Dict Tm TV) (cand : Tm → List Tm) (os : List Tm) (L : List (List Tm)) : Prop where
  der : ∀ x, x ∈ Dict.keys chart ↔ Der c.rules1 x
  ground : ∀ x ∈ Dict.keys chart, Ground x
  cok : CandOk chart cand
  outs : outputs c chart cand = some os
  tar : Tarjan.tarjan (fun x => (deps c chart cand x).getD []) c.f os = some L
  dok : ∀ k, (∃ comp ∈ L, k ∈ comp) → ∃ out, deps c chart cand k = some out

theorem support_inv {c : Cfg} (hp : Pre c) {st : St TV} (h : ForwardChaining (cfg1 c.rules1) St.empty st) {cand}
    (hc : LawfulCand cand) {M : Dict Tm Int} (e : support c st.chart (cand st.chart) = some M) :
    ∃ os L, Sup c st.chart (cand st.chart) os L ∧ M = supportMap L ∧ ∀ x ∈ Dict.keys st.chart, ∃ v, priority c M x = some v := by
  have hi := sinv_run (g := cfg1 c.rules1) hp.safe (forward_run h).1
  unfold support at e
  split at e
  · simp at e
  · rename_i L eL
    simp only at e
    split at e
    · rename_i hall
      simp only [Option.some.injEq] at e
      subst e
      unfold sccs at eL
      split at eL
      · simp at eL
      · rename_i os eo
        split at eL
        · simp at eL
        · rename_i L' eT
          split at eL
          · rename_i hsome
            simp only [Option.some.injEq] at eL
            subst eL
            refine ⟨os, L', ⟨pass1_der hp.safe hp.noval h, hi.ground, fun c as => hc _ c as hi.wf hi.ground, eo, eT, ?_⟩, rfl, ?_⟩
            · rintro k ⟨comp, hc, hk⟩
              exact Option.isSome_iff_exists.1 (List.all_eq_true.1 hsome k (List.mem_flatten.2 ⟨comp, hc, hk⟩))
            · intro x hx
              exact Option.isSome_iff_exists.1 (List.all_eq_true.1 hall x hx)
          · simp at eL
    · simp at e

theorem isInput_exo {c : Cfg} (hp : Pre c) {k : Tm} (hk : ∀ n ∈ vars k, ∃ i, n = c.cv i)
    (e : isInput c.f k noHeap c.inputs = some false) {x : Tm} (hx : InstanceOf x k) : ¬ Exo c.inputs x := by
  classical
  rintro ⟨i, hi, σ, hσ⟩
  obtain ⟨σ', hσ'⟩ := hx
  have := (Slash.isInput_heap good_noHeap e).2 ⟨i, hi, fun n => if n ∈ vars i then σ n else σ' n, respects_noHeap _, by
    rw [sub_congr (t := i) (τ := σ) (fun n hn => by simp [hn]), sub_congr (t := k) (τ := σ') (fun n hn => by
      obtain ⟨j, rfl⟩ := hk n hn
      simp [hp.apartIn i hi j]), hσ, hσ']⟩
  simp at this

section
variable {c : Cfg} {chart : Dict Tm TV} {cand : Tm → List Tm} {os : List Tm} {L : List (List Tm)}

theorem Sup.sat (h : Sup c chart cand os L) {r : SRule TV} {θ : Nat → Tm} : θ ∈ Sat chart r ↔ Fires (Der c.rules1) r θ :=
  ⟨fun hs => (sat_fires hs).mono fun x hx => (h.der x).1 hx, fun hf => fires_sat (hf.mono fun x hx => (h.der x).2 hx)⟩

theorem Sup.lits (h : Sup c chart cand os L) {b : List (BLit TV)} {τ : Nat → Tm} : (∀ z ∈ b, ∃ v, LitSat chart τ z v) ↔
    (∀ t, BLit.sub t ∈ b → Der c.rules1 (t.sub τ)) ∧ (∀ x y, BLit.eq x y ∈ b → x.sub τ = y.sub τ) ∧
      ∀ p x y, BLit.cmp p x y ∈ b → p (x.sub τ) (y.sub τ) = true := by
  constructor
  · intro hz
    refine ⟨fun t ht => ?_, fun x y hb => ?_, fun p x y hb => ?_⟩
    · obtain ⟨v, hv⟩ := hz _ ht
      exact (h.der _).1 ((Dict.mem_keys_iff_get _ _).2 ⟨v, hv⟩)
    · obtain ⟨v, hv⟩ := hz _ hb
      exact hv.1
    · obtain ⟨v, hv⟩ := hz _ hb
      exact hv.1
  · rintro ⟨h1, h2, h3⟩ z hz
    cases z with
    | val k => exact ⟨k, rfl⟩
    | sub t => obtain ⟨v, hv⟩ := (Dict.mem_keys_iff_get _ _).1 ((h.der _).2 (h1 t hz)); exact ⟨v, hv⟩
    | eq x y => exact ⟨1, h2 _ _ hz, rfl⟩
    | cmp o x y => exact ⟨1, h3 _ _ _ hz, rfl⟩

theorem Sup.key (h : Sup c chart cand os L) {k : Tm} : (∃ comp ∈ L, k ∈ comp) ↔
    ∃ v ∈ os, Tarjan.Reach (fun x => (deps c chart cand x).getD []) v k := (Tarjan.C40_partition h.tar).1 k

theorem Sup.out_inst (hp : Pre c) (h : Sup c chart cand os L) {k x : Tm} (hk : k ∈ os) (hx : InstanceOf x k) : IsOut c.rules1 c.outs x := by
  obtain ⟨_, o, ho, _, _, _, h1⟩ := (outputs_spec hp.cv hp.outBody h.ground h.cok h.outs).1 k hk
  obtain ⟨σ, rfl⟩ := hx
  obtain ⟨τ, h2, h3⟩ := h1 σ
  obtain ⟨a, b, d⟩ := h.lits.1 h2
  exact ⟨o, ho, τ, a, b, d, h3⟩

theorem Sup.out_key (hp : Pre c) (h : Sup c chart cand os L) {x : Tm} (hx : IsOut c.rules1 c.outs x) : ∃ k ∈ os, InstanceOf x k := by
  obtain ⟨o, ho, τ, a, b, d, rfl⟩ := hx
  exact (outputs_spec hp.cv hp.outBody h.ground h.cok h.outs).2 o ho τ (h.lits.2 ⟨a, b, d⟩)

theorem Sup.out_vars (hp : Pre c) (h : Sup c chart cand os L) {k : Tm} (hk : k ∈ os) : ∀ n ∈ vars k, ∃ i, n = c.cv i :=
  ((outputs_spec hp.cv hp.outBody h.ground h.cok h.outs).1 k hk).1

theorem ground_vars {x : Tm} (hx : Ground x) : ∀ n ∈ vars x, ∃ i, n = c.cv i := by
  intro n hn; rw [hx] at hn; simp at hn

/-- an output pattern is ground, or its instances are no inputs, or all inputs -/
theorem Sup.out_cases (hp : Pre c) (h : Sup c chart cand os L) {k : Tm} (hk : k ∈ os) :
    Ground k ∨ ((∃ l, k = .app l) ∧ ((∀ x, InstanceOf x k → ¬ Exo c.inputs x) ∨ ∀ x, InstanceOf x k → Ground x → Exo c.inputs x)) := by
  obtain ⟨_, o, ho, τ, h1, hv, h2⟩ := (outputs_spec hp.cv hp.outBody h.ground h.cok h.outs).1 k hk
  rcases hp.outOk o ho with hg | ⟨⟨f, as, hf⟩, h3⟩
  · left
    have : Ground (o.head.sub τ) := by
      refine ground_sub fun n hn => ?_
      obtain ⟨t, ht, hn⟩ := hg n hn
      obtain ⟨v, hv⟩ := h1 _ ht
      have := h.ground _ ((Dict.mem_keys_iff_get _ _).2 ⟨v, hv⟩)
      exact ground_of_mem this hn
    rw [ground_variant this hv]; exact this
  · right
    refine ⟨?_, ?_⟩
    · obtain ⟨ρ, _, rfl⟩ := hv
      rw [hf]
      exact ⟨subL (fun n => var (ρ n)) (subL τ (con f :: as)), by simp only [Tm.sub]⟩
    · rcases h3 with h3 | h3
      · left
        rintro x ⟨σ, rfl⟩
        obtain ⟨τ', _, e⟩ := h2 σ
        rw [← e]; exact h3 τ'
      · right
        rintro x ⟨σ, rfl⟩
        obtain ⟨τ', _, e⟩ := h2 σ
        rw [← e]; exact h3 τ'

theorem Sup.key_cases (hp : Pre c) (h : Sup c chart cand os L) {k : Tm} (hk : ∃ comp ∈ L, k ∈ comp) :
    k ∈ os ∨ (Ground k ∧ ¬ Exo c.inputs k ∧ Der c.rules1 k ∧ Wanted c.rules1 c.inputs c.outs k) := by
  obtain ⟨v, hv, hr⟩ := h.key.1 hk
  induction hr with
  | refl => exact .inl hv
  | @tail b k hb hs ih =>
    right
    have hbk : ∃ comp ∈ L, b ∈ comp := h.key.2 ⟨v, hv, hb⟩
    obtain ⟨out, eo⟩ := h.dok b hbk
    simp only [eo, Option.getD_some] at hs
    have hbv : ∀ n ∈ vars b, ∃ i, n = c.cv i := by
      rcases ih hbk with hb | hb
      · exact h.out_vars hp hb
      · exact ground_vars hb.1
    obtain ⟨l, rfl⟩ : ∃ l, b = .app l := by
      rcases ih hbk with hb | hb
      · rcases h.out_cases hp hb with hg | ⟨hl, _⟩
        · cases b with
          | var n => simp [Ground, vars] at hg
          | con c => simp [deps] at eo
          | app l => exact ⟨l, rfl⟩
        · exact hl
      · cases b with
        | var n => simp [Ground, vars] at hb
        | con c => simp [deps] at eo
        | app l => exact ⟨l, rfl⟩
    rcases deps_spec hp.cv hp.safe hp.apart h.ground h.cok hbv eo with ⟨_, rfl⟩ | ⟨ei, hd⟩
    · simp at hs
    · obtain ⟨r, hr, θ, hθ, hi, t, ht, rfl, hex⟩ := (hd k).1 hs
      have hf := h.sat.1 hθ
      have hnx := isInput_exo hp hbv ei hi
      have hder := hf.sub t ht
      have hgr := h.ground _ ((h.der _).2 hder)
      have hhg : Ground (r.head.sub θ) := ground_sub fun n hn => hf.gs.1 n (.inl hn)
      refine ⟨hgr, hex, hder, .dep ?_ hnx hr hf ht hex⟩
      rcases ih hbk with hb | hb
      · exact .out (h.out_inst hp hb hi) hhg
      · obtain ⟨σ, hσ⟩ := hi
        rw [Chart.sub_ground hb.1] at hσ
        rw [← hσ]; exact hb.2.2.2

theorem Sup.key_vars (hp : Pre c) (h : Sup c chart cand os L) {k : Tm} (hk : ∃ comp ∈ L, k ∈ comp) : ∀ n ∈ vars k, ∃ i, n = c.cv i := by
  rcases h.key_cases hp hk with hb | hb
  · exact h.out_vars hp hb
  · exact ground_vars hb.1

theorem Sup.key_app (hp : Pre c) (h : Sup c chart cand os L) {k : Tm} (hk : ∃ comp ∈ L, k ∈ comp) : ∃ l, k = .app l := by
  obtain ⟨out, eo⟩ := h.dok k hk
  have : Ground k ∨ ∃ l, k = .app l := by
    rcases h.key_cases hp hk with hb | hb
    · rcases h.out_cases hp hb with hg | ⟨hl, _⟩
      · exact .inl hg
      · exact .inr hl
    · exact .inl hb.1
  rcases this with hg | h
  · cases k with
    | var n => simp [Ground, vars] at hg
    | con c => simp [deps] at eo
    | app l => exact ⟨l, rfl⟩
  · exact h

theorem Sup.key_wanted (hp : Pre c) (h : Sup c chart cand os L) {k x : Tm} (hk : ∃ comp ∈ L, k ∈ comp) (hx : InstanceOf x k) (hg : Ground x) :
    Wanted c.rules1 c.inputs c.outs x := by
  rcases h.key_cases hp hk with hb | hb
  · exact .out (h.out_inst hp hb hx) hg
  · obtain ⟨σ, hσ⟩ := hx
    rw [Chart.sub_ground hb.1] at hσ
    rw [← hσ]; exact hb.2.2.2

/-- the dependencies of an item that is no input are among those of each of its patterns -/
theorem Sup.key_dep (hp : Pre c) (h : Sup c chart cand os L) {k : Tm} (hk : ∃ comp ∈ L, k ∈ comp) {r : SRule TV} (hr : r ∈ c.rules1)
    {θ : Nat → Tm} (hf : Fires (Der c.rules1) r θ) (hi : InstanceOf (r.head.sub θ) k) (hnx : ¬ Exo c.inputs (r.head.sub θ)) {t : Tm}
    (ht : BLit.sub t ∈ r.body) (hex : ¬ Exo c.inputs (t.sub θ)) : t.sub θ ∈ (deps c chart cand k).getD [] := by
  obtain ⟨out, eo⟩ := h.dok k hk
  obtain ⟨l, rfl⟩ := h.key_app hp hk
  have hhg : Ground (r.head.sub θ) := ground_sub fun n hn => hf.gs.1 n (.inl hn)
  rcases deps_spec hp.cv hp.safe hp.apart h.ground h.cok (h.key_vars hp hk) eo with ⟨ei, _⟩ | ⟨ei, hd⟩
  · exfalso
    obtain ⟨i, hii, τ, _, hτ⟩ := (Slash.isInput_heap good_noHeap ei).1 rfl
    have hground : Ground (.app l) → False := by
      intro hg
      obtain ⟨σ, hσ⟩ := hi
      rw [Chart.sub_ground hg] at hσ
      rw [← hσ] at hnx
      exact hnx ((exo_ground hg ei).1 rfl)
    rcases h.key_cases hp hk with hb | hb
    · rcases h.out_cases hp hb with hg | ⟨_, h1 | h1⟩
      · exact hground hg
      · exact h1 _ ⟨τ, rfl⟩ ⟨i, hii, τ, hτ⟩
      · exact hnx (h1 _ hi hhg)
    · exact hground hb.1
  · rw [eo]
    exact (hd _).2 ⟨r, hr, θ, h.sat.2 hf, hi, t, ht, rfl, hex⟩

theorem Sup.succ_key (h : Sup c chart cand os L) {k y : Tm} (hk : ∃ comp ∈ L, k ∈ comp) (hy : y ∈ (deps c chart cand k).getD []) :
    ∃ comp ∈ L, y ∈ comp := by
  obtain ⟨v, hv, hr⟩ := h.key.1 hk
  exact h.key.2 ⟨v, hv, hr.tail hy⟩

theorem Sup.wanted_key (hp : Pre c) (h : Sup c chart cand os L) {x : Tm} (hx : Wanted c.rules1 c.inputs c.outs x) :
    ∃ k, (∃ comp ∈ L, k ∈ comp) ∧ InstanceOf x k := by
  induction hx with
  | out ho _ =>
    obtain ⟨k, hk, hi⟩ := h.out_key hp ho
    exact ⟨k, h.key.2 ⟨k, hk, .refl⟩, hi⟩
  | @dep r θ t _ hnx hr hf ht hex ih =>
    obtain ⟨k, hk, hi⟩ := ih
    exact ⟨_, h.succ_key hk (h.key_dep hp hk hr hf hi hnx ht hex), InstanceOf.refl _⟩

theorem Sup.disj (h : Sup c chart cand os L) : L.Pairwise fun a b => ∀ x ∈ a, x ∉ b := (Tarjan.C40_partition h.tar).2.1

theorem Sup.get_key (h : Sup c chart cand os L) {k : Tm} : (∃ comp ∈ L, k ∈ comp) ↔ ∃ v, (supportMap L).get k = some v := by
  constructor
  · rintro ⟨comp, hc, hk⟩
    obtain ⟨i, hi⟩ := List.mem_iff_getElem?.1 hc
    exact ⟨_, (support_get h.disj _ _).2 ⟨i, comp, hi, hk, rfl⟩⟩
  · rintro ⟨v, hv⟩
    obtain ⟨i, comp, hi, hk, _⟩ := (support_get h.disj _ _).1 hv
    exact ⟨comp, List.mem_of_getElem? hi, hk⟩

/-- what is reached has no larger number -/
theorem Sup.le (h : Sup c chart cand os L) {k y : Tm} {v w : Int} (hk : (supportMap L).get k = some v) (hy : (supportMap L).get y = some w)
    (hr : Tarjan.Reach (fun x => (deps c chart cand x).getD []) k y) : w ≤ v := by
  obtain ⟨i, comp, hi, hki, rfl⟩ := (support_get h.disj _ _).1 hk
  obtain ⟨j, comp', hj, hyj, rfl⟩ := (support_get h.disj _ _).1 hy
  obtain ⟨hil, rfl⟩ := List.getElem?_eq_some_iff.1 hi
  have hsplit : L = L.take i ++ L[i] :: L.drop (i + 1) := by simp
  rcases Tarjan.C40_order h.tar hsplit hki hr with h1 | ⟨c', h1, h2⟩
  · have := comp_index h.disj hi hj h1 hyj
    omega
  · obtain ⟨m, hm⟩ := List.mem_iff_getElem?.1 h1
    rw [List.getElem?_take] at hm
    split at hm
    · have := comp_index h.disj hm hj h2 hyj
      omega
    · simp at hm

theorem Sup.pos (h : Sup c chart cand os L) {k : Tm} {v : Int} (hk : (supportMap L).get k = some v) : 1 ≤ v := by
  obtain ⟨i, _, _, _, rfl⟩ := (support_get h.disj _ _).1 hk
  omega

/-- what `priority` answers about an item that is no input: the least number of a component with a pattern of the item, and the
number of its own component if it is a member -/
theorem Sup.prio_spec (hp : Pre c) (h : Sup c chart cand os L) {l : List Tm} (hg : Ground (.app l)) {p : Option Int}
    (e : priority c (supportMap L) (.app l) = some p) :
    (Exo c.inputs (.app l) ∧ p = some 0) ∨ (¬ Exo c.inputs (.app l) ∧
      ((p = none ∧ ¬ Wanted c.rules1 c.inputs c.outs (.app l)) ∨
        ∃ k v, p = some v ∧ (supportMap L).get k = some v ∧ InstanceOf (.app l) k ∧ Wanted c.rules1 c.inputs c.outs (.app l) ∧
          ∀ w, (supportMap L).get (.app l) = some w → w = v)) := by
  simp only [priority] at e
  split at e
  · simp at e
  · rename_i ei
    simp only [Option.some.injEq] at e
    exact .inl ⟨(exo_ground hg ei).1 rfl, e.symm⟩
  · rename_i ei
    have hnx : ¬ Exo c.inputs (.app l) := fun hx => by simpa using (exo_ground hg ei).2 hx
    refine .inr ⟨hnx, ?_⟩
    split at e
    · rename_i v hv
      simp only [Option.some.injEq] at e
      have hk := h.get_key.2 ⟨v, hv⟩
      exact .inr ⟨_, v, e.symm, hv, InstanceOf.refl _, h.key_wanted hp hk (InstanceOf.refl _) hg, fun w hw => by
        rw [hv] at hw; simpa using hw.symm⟩
    · rename_i hnone
      obtain ⟨h1, h2⟩ := best_spec hg e
      cases p with
      | none =>
        refine .inl ⟨rfl, fun hw => ?_⟩
        obtain ⟨k, hk, hi⟩ := h.wanted_key hp hw
        obtain ⟨v, hv⟩ := h.get_key.1 hk
        exact (h1.1 rfl).2 k v (Dict.mem_of_get hv) hi
      | some v =>
        obtain ⟨a1, _, a3⟩ := h2 v rfl
        rcases a1 with a1 | ⟨k, hk, hi⟩
        · simp at a1
        · have hv := Dict.get_of_mem (support_wf L) hk
          exact .inr ⟨k, v, rfl, hv, hi, h.key_wanted hp (h.get_key.2 ⟨v, hv⟩) hi hg, fun w hw => by rw [hnone] at hw; simp at hw⟩

end

/-! ### Without magic templates -/

/-- a call with `magic=False`: `rules` is `p + data` -/
structure Setup (c : Cfg) (rules : List (SRule K)) : Prop where
  bool : c.rules1 = rules.map boolRule
  cv : Function.Injective c.cv
  safe : ∀ r ∈ rules, Safe r
  heads : ∀ r ∈ rules, ∃ f as, r.head = .app (.con f :: as)
  apart : ∀ r ∈ rules, ∀ i, ¬ InRule r (c.cv i)
  apartIn : ∀ i ∈ c.inputs, ∀ n, c.cv n ∉ vars i
  outBody : ∀ o ∈ c.outs, OutBody o
  outOk : ∀ o ∈ c.outs, OutOk c.inputs o

theorem Setup.pre {c : Cfg} {rules : List (SRule K)} (h : Setup c rules) : Pre c := by
  refine ⟨h.cv, ?_, ?_, ?_, h.apartIn, h.outBody, h.outOk⟩ <;> rw [h.bool] <;> intro r hr <;> obtain ⟨r0, hr0, rfl⟩ := List.mem_map.1 hr
  · exact bool_safe (h.safe r0 hr0)
  · intro k hk
    obtain ⟨z, _, e⟩ := mem_bool.1 hk
    cases z <;> simp [boolLit] at e
  · intro i hi
    exact h.apart r0 hr0 i ((bool_inRule _).1 hi)

theorem mem_bool_cmp {r : SRule K} {o : Tm → Tm → Bool} {x y : Tm} : BLit.cmp o x y ∈ (boolRule r).body ↔ BLit.cmp o x y ∈ r.body := by
  rw [mem_bool]
  constructor
  · rintro ⟨z, hz, e⟩
    cases z <;> simp [boolLit] at e
    obtain ⟨rfl, rfl, rfl⟩ := e
    exact hz
  · intro h
    exact ⟨_, h, rfl⟩

theorem fires_bool {D : Tm → Prop} {r : SRule K} {θ : Nat → Tm} : Fires D (boolRule r) θ ↔ Fires D r θ := by
  constructor
  · intro h
    exact ⟨bool_gsub.1 h.gs, fun t ht => h.sub t (mem_bool_sub.2 ht), fun x y hz => h.eq x y (mem_bool_eq.2 hz), fun o x y hz => h.cmp o x y (mem_bool_cmp.2 hz)⟩
  · intro h
    exact ⟨bool_gsub.2 h.gs, fun t ht => h.sub t (mem_bool_sub.1 ht), fun x y hz => h.eq x y (mem_bool_eq.1 hz), fun o x y hz => h.cmp o x y (mem_bool_cmp.1 hz)⟩

theorem der_bool {rules : List (SRule K)} {x : Tm} : Der (rules.map boolRule) x ↔ Der rules x := by
  constructor
  · intro h
    induction h with
    | @mk r θ hr h1 h2 h3 h4 ih =>
      obtain ⟨r0, hr0, rfl⟩ := List.mem_map.1 hr
      exact ((fires_bool (D := Der rules)).1 ⟨h1, ih, h3, h4⟩).der hr0
  · intro h
    induction h with
    | @mk r θ hr h1 h2 h3 h4 ih =>
      exact ((fires_bool (D := Der (rules.map boolRule))).2 ⟨h1, ih, h3, h4⟩).der (List.mem_map.2 ⟨r, hr, rfl⟩)

theorem isOut_bool {rules : List (SRule K)} {outs : List (SRule TV)} {x : Tm} : IsOut (rules.map boolRule) outs x ↔ IsOut rules outs x := by
  unfold IsOut; simp only [der_bool]

theorem wanted_bool {rules : List (SRule K)} {inputs : List Tm} {outs : List (SRule TV)} {x : Tm} :
    Wanted (rules.map boolRule) inputs outs x ↔ Wanted rules inputs outs x := by
  constructor
  · intro h
    induction h with
    | out h hg => exact .out (isOut_bool.1 h) hg
    | dep h1 h2 h3 h4 h5 h6 ih =>
      obtain ⟨r0, hr0, rfl⟩ := List.mem_map.1 h3
      exact .dep ih h2 hr0 (fires_bool.1 (h4.mono fun x => der_bool.1)) (mem_bool_sub.1 h5) h6
  · intro h
    induction h with
    | out h hg => exact .out (isOut_bool.2 h) hg
    | dep h1 h2 h3 h4 h5 h6 ih =>
      exact .dep ih h2 (List.mem_map.2 ⟨_, h3, rfl⟩) (fires_bool.2 (h4.mono fun x => der_bool.2)) (mem_bool_sub.2 h5) h6

theorem der_ground {rules : List (SRule K)} {x : Tm} (h : Der rules x) : Ground x := by
  cases h with
  | mk _ hθ _ _ _ => exact ground_sub fun n hn => hθ.1 n (.inl hn)

theorem der_app {rules : List (SRule K)} (hh : ∀ r ∈ rules, ∃ f as, r.head = .app (.con f :: as)) {x : Tm} (h : Der rules x) :
    ∃ l, x = .app l := by
  cases h with
  | @mk r θ hr _ _ _ _ =>
    obtain ⟨f, as, e⟩ := hh r hr
    rw [e]
    exact ⟨subL θ (con f :: as), by simp only [Tm.sub]⟩

/-- an item of an input, or one the outputs depend on -/
def Keep (c : Cfg) (rules : List (SRule K)) (x : Tm) : Prop := Exo c.inputs x ∨ Wanted rules c.inputs c.outs x

theorem prio_cases {c : Cfg} {rules : List (SRule K)} (hs : Setup c rules) {approx inf st1 M} {st : St K}
    (h : SccSolver c rules approx inf st1 M st) : ∃ cand os L, Sup c st1.chart cand os L ∧ M = supportMap L ∧
    ∀ x, Der rules x → (Exo c.inputs x ∧ prio c M x = some 0) ∨ (¬ Exo c.inputs x ∧
      ((prio c M x = none ∧ ¬ Wanted rules c.inputs c.outs x) ∨
        ∃ k v, prio c M x = some v ∧ M.get k = some v ∧ InstanceOf x k ∧ Wanted rules c.inputs c.outs x ∧ ∀ w, M.get x = some w → w = v)) := by
  obtain ⟨h1, ⟨cand, hc, h2⟩, h3⟩ := h
  obtain ⟨os, L, hS, rfl, hall⟩ := support_inv hs.pre h1 hc h2
  refine ⟨_, os, L, hS, rfl, fun x hx => ?_⟩
  obtain ⟨l, rfl⟩ := der_app hs.heads hx
  obtain ⟨p, hp⟩ := hall _ ((hS.der _).2 (by rw [hs.bool]; exact der_bool.2 hx))
  have := hS.prio_spec hs.pre (der_ground hx) hp
  rw [hs.bool] at this
  simp only [wanted_bool] at this
  have e : prio c (supportMap L) (.app l) = p := by simp [prio, hp]
  rw [e]
  exact this

/-- The items that pass 2 keeps are, of the derivable items, exactly the inputs and those on which an output depends through
derivable instances of rules. -/
theorem C64_support {c : Cfg} {rules : List (SRule K)} (hs : Setup c rules) {approx inf st1 M} {st : St K}
    (h : SccSolver c rules approx inf st1 M st) {x : Tm} (hx : Der rules x) :
    prio c M x ≠ none ↔ Exo c.inputs x ∨ Wanted rules c.inputs c.outs x := by
  obtain ⟨_, _, _, _, _, h⟩ := prio_cases hs h
  rcases h x hx with ⟨h1, h2⟩ | ⟨h1, ⟨h2, h3⟩ | ⟨_, v, h2, _, _, h3, _⟩⟩
  · simp [h1, h2]
  · simp [h1, h2, h3]
  · simp [h2, h3]

/-- an input is not defined by means of other items -/
def DataSep (c : Cfg) (rules : List (SRule K)) : Prop :=
  ∀ r ∈ rules, ∀ θ, Fires (Der rules) r θ → Exo c.inputs (r.head.sub θ) → ∀ t, BLit.sub t ∈ r.body → Exo c.inputs (t.sub θ)

/-- The index respects the dependencies: no item of a derivable instance comes later than what it is used for. -/
theorem C64_order {c : Cfg} {rules : List (SRule K)} (hs : Setup c rules) (hd : DataSep c rules) {approx inf st1 M} {st : St K}
    (h : SccSolver c rules approx inf st1 M st) {r : SRule K} (hr : r ∈ rules) {θ : Nat → Tm} (hf : Fires (Der rules) r θ) {t : Tm}
    (ht : BLit.sub t ∈ r.body) {p : Int} (hp : prio c M (r.head.sub θ) = some p) : ∃ q, prio c M (t.sub θ) = some q ∧ q ≤ p := by
  obtain ⟨cand, os, L, hS, rfl, h⟩ := prio_cases hs h
  rcases h _ (hf.sub t ht) with ⟨h1, h2⟩ | ⟨h1, h2⟩
  · refine ⟨0, h2, ?_⟩
    rcases h _ (hf.der hr) with ⟨_, k2⟩ | ⟨_, ⟨k2, _⟩ | ⟨k, v, k2, k3, _⟩⟩
    · rw [hp] at k2; simp at k2; omega
    · rw [hp] at k2; simp at k2
    · rw [hp] at k2; simp at k2
      have := hS.pos k3
      omega
  · rcases h _ (hf.der hr) with ⟨k1, _⟩ | ⟨k1, ⟨k2, _⟩ | ⟨k, v, k2, k3, k4, k5, _⟩⟩
    · exact absurd (hd r hr θ hf k1 t ht) h1
    · rw [hp] at k2; simp at k2
    · rw [hp] at k2; simp only [Option.some.injEq] at k2; subst k2
      have hkey := hS.get_key.2 ⟨_, k3⟩
      have hmem : t.sub θ ∈ (deps c st1.chart cand k).getD [] :=
        hS.key_dep hs.pre hkey (r := boolRule r) (by rw [hs.bool]; exact List.mem_map.2 ⟨r, hr, rfl⟩)
          (fires_bool.2 (hf.mono fun x hx => by rw [hs.bool]; exact der_bool.2 hx)) k4 k1 (mem_bool_sub.2 ht) h1
      obtain ⟨w, hw⟩ := hS.get_key.1 (hS.succ_key hkey hmem)
      have hle := hS.le k3 hw (.single hmem)
      rcases h2 with ⟨_, h3⟩ | ⟨_, v', h3, _, _, _, h4⟩
      · exact absurd (.dep k5 k1 hr hf ht h1) h3
      · exact ⟨v', h3, by rw [← h4 w hw]; exact hle⟩

/-! ### Pass 2 -/

theorem pops_run {g : Solver.Cfg K} {D : List (Tm × K)} {st st' : St K} (h : Run g D st) (hall : ∀ i < g.rules.length, i ∈ st.inited)
    (hp : Pops g st st') : Run g D st' ∧ ∀ i < g.rules.length, i ∈ st'.inited := by
  induction hp with
  | refl => exact ⟨h, hall⟩
  | step _ hs ih =>
    obtain ⟨f, cand, a, hc, ha, _, e⟩ := hs
    have hst : Pop g _ _ := ⟨f, cand, a, hc, (Dict.mem_keys_iff_get _ _).2 ⟨_, ha⟩, e⟩
    exact ⟨Run.pop ih.1 ih.2 hst, by rw [pop_inited hst]; exact ih.2⟩

theorem pass2_run {g : Solver.Cfg K} {st : St K} (h : Pass2 g st) : Run g [] st ∧ (∀ i < g.rules.length, i ∈ st.inited) ∧ st.chg.agenda = [] := by
  obtain ⟨f, cand, st1, hc, hi, hp, hag⟩ := h
  obtain ⟨h1, _, h2⟩ := run_initAll hc Run.empty (by simp) hi
  simp only [Nat.zero_add] at h2
  obtain ⟨h3, h4⟩ := pops_run h1 h2 hp
  exact ⟨h3, h4, hag⟩

/-- Pass 2 holds only derivable items that are inputs or on which the outputs depend. -/
theorem C64_only {c : Cfg} {rules : List (SRule K)} (hs : Setup c rules) {approx inf st1 M} {st : St K}
    (h : SccSolver c rules approx inf st1 M st) {x : Tm} (hx : x ∈ Dict.keys st.chart) :
    Der rules x ∧ (Exo c.inputs x ∨ Wanted rules c.inputs c.outs x) := by
  obtain ⟨h1, _, _⟩ := pass2_run h.2.2
  have hd := (run_der (g := cfg2 c M rules approx inf) hs.safe h1 rfl).1 x hx
  refine ⟨hd, (C64_support hs h hd).1 ?_⟩
  exact (sinv_run (g := cfg2 c M rules approx inf) hs.safe h1).kept x hx _ rfl

theorem mem_keys_of_value {chart : Dict Tm K} {x : Tm} (h : value chart x ≠ 0) : x ∈ Dict.keys chart := by
  by_contra hn
  exact h (by simp [value, (Dict.get_eq_none_iff _ _).2 hn])

/-- an item that cannot be derived gets nothing from the rules -/
theorem rhs_underivable {rules : List (SRule K)} {chart : Dict Tm K} (hch : ∀ x ∈ Dict.keys chart, Der rules x) {x : Tm} (hx : ¬ Der rules x) :
    rhs rules (value chart) x = 0 := by
  unfold rhs
  refine List.sum_eq_zero fun a ha => ?_
  obtain ⟨r, hr, rfl⟩ := List.mem_map.1 ha
  unfold contrib
  refine (finsum_congr fun θ => ?_).trans finsum_zero
  by_contra hne
  obtain ⟨h1, rfl⟩ := instAt_support hne
  exact hx (((sat_fires h1).mono hch).der hr)

open Classical in
/-- With exact comparison, in any semiring: the value of an input or of an item the outputs depend on is the sum over all its
instances of rules; all other items have no value. -/
theorem C64_equations {c : Cfg} {rules : List (SRule K)} (hs : Setup c rules) {approx : K → K → Bool} (hex : ∀ a b, approx a b = true → a = b)
    {inf st1 M} {st : St K} (h : SccSolver c rules approx inf st1 M st) (x : Tm) :
    value st.chart x = if Exo c.inputs x ∨ Wanted rules c.inputs c.outs x then rhs rules (value st.chart) x else 0 := by
  obtain ⟨h1, h2, h3⟩ := pass2_run h.2.2
  have hd := (run_der (g := cfg2 c M rules approx inf) hs.safe h1 rfl).1
  have heq := C47_solution (g := cfg2 c M rules approx inf) hs.safe hex h1 h2 h3 x
  simp only [dataAt, List.map_nil, List.sum_nil, zero_add] at heq
  by_cases hx : Der rules x
  · have hk : Kept (cfg2 c M rules approx inf).prio x ↔ Exo c.inputs x ∨ Wanted rules c.inputs c.outs x := by
      rw [← C64_support hs h hx]
      simp [Kept, cfg2]
    rw [heq]
    simp only [hk]
    rfl
  · have h0 : value st.chart x = 0 := by
      by_contra hne
      exact hx (hd x (mem_keys_of_value hne))
    rw [h0, rhs_underivable (rules := rules) hd hx]; simp

/-- an input is defined by means of inputs and items the outputs depend on -/
def DataOk (c : Cfg) (rules : List (SRule K)) : Prop :=
  ∀ r ∈ rules, ∀ θ, Fires (Der rules) r θ → Exo c.inputs (r.head.sub θ) → ∀ t, BLit.sub t ∈ r.body →
    Exo c.inputs (t.sub θ) ∨ Wanted rules c.inputs c.outs (t.sub θ)

theorem DataSep.ok {c : Cfg} {rules : List (SRule K)} (h : DataSep c rules) : DataOk c rules :=
  fun r hr θ hf hx t ht => .inl (h r hr θ hf hx t ht)

theorem keep_closed {c : Cfg} {rules : List (SRule K)} (hd : DataOk c rules) {r : SRule K} (hr : r ∈ rules) {θ : Nat → Tm}
    (hf : Fires (Der rules) r θ) (hk : Keep c rules (r.head.sub θ)) {t : Tm} (ht : BLit.sub t ∈ r.body) : Keep c rules (t.sub θ) := by
  by_cases hx : Exo c.inputs (r.head.sub θ)
  · exact hd r hr θ hf hx t ht
  · by_cases hy : Exo c.inputs (t.sub θ)
    · exact .inl hy
    · exact .inr (.dep (hk.resolve_left hx) hx hr hf ht hy)

section
variable [PartialOrder K] [IsOrderedRing K]

/-- an instance that counts uses only derivable items -/
theorem instAt_fires {rules : List (SRule K)} {v : Tm → K} (hv : ∀ x, v x ≠ 0 → Der rules x) {r : SRule K} {x : Tm} {θ : Nat → Tm}
    (h : instAt r v x θ ≠ 0) : Fires (Der rules) r θ ∧ r.head.sub θ = x := by
  unfold instAt at h
  split at h
  · rename_i hc
    have hz : ∀ z ∈ r.body, litVal v θ z ≠ 0 := fun z hz h0 => h (List.prod_eq_zero (List.mem_map.2 ⟨z, hz, h0⟩))
    refine ⟨⟨hc.1, fun t ht => hv _ (hz _ ht), fun x y hb => ?_, fun o x y hb => ?_⟩, hc.2⟩
    · by_contra hne; exact hz _ hb (by simp [litVal, hne])
    · by_contra hne; exact hz _ hb (by simp [litVal, hne])
  · exact absurd rfl h

/-- In a semiring ordered by addition, with exact comparison: the inputs and the items the outputs depend on get the values that an
ordinary run of the solver on the whole program gives them (any priorities and orders in it). -/
theorem C64_values (h0 : ∀ k : K, 0 ≤ k) {c : Cfg} {rules : List (SRule K)} (hs : Setup c rules) (hd : DataOk c rules)
    {approx approx' : K → K → Bool} (hex : ∀ a b, approx a b = true → a = b) (hex' : ∀ a b, approx' a b = true → a = b) {inf inf' st1 M} {st : St K}
    (h : SccSolver c rules approx inf st1 M st) {stF : St K} (hF : ForwardChaining ⟨rules, none, approx', inf'⟩ St.empty stF) {x : Tm}
    (hx : Exo c.inputs x ∨ Wanted rules c.inputs c.outs x) : value st.chart x = value stF.chart x := by
  classical
  obtain ⟨h1, h2, h3⟩ := pass2_run h.2.2
  obtain ⟨k1, k2, k3⟩ := forward_run hF
  have hda := (run_der (g := cfg2 c M rules approx inf) hs.safe h1 rfl).1
  have hdb := (run_der (g := ⟨rules, none, approx', inf'⟩) hs.safe k1 rfl).1
  have heqb : ∀ x, value stF.chart x = dataAt [] x + rhs rules (value stF.chart) x := fun x =>
    run_fixpoint (g := ⟨rules, none, approx', inf'⟩) hs.safe hex' k1 k2 k3 (by simp [Kept])
  have pb : PreSol rules (fun _ => True) (dataAt []) (value stF.chart) := presol_of_fixpoint h0 hs.safe fun x _ => heqb x
  have pa : PreSol rules (Keep c rules) (dataAt []) (value st.chart) := presol_of_fixpoint h0 hs.safe fun x hx => by
    have := C64_equations hs hex h x
    rw [if_pos (show Exo c.inputs x ∨ Wanted rules c.inputs c.outs x from hx)] at this
    simpa [dataAt] using this
  have hle : ∀ x, value st.chart x ≤ value stF.chart x := fun x =>
    (C24_below h0 (g := cfg2 c M rules approx inf) hs.safe h1 (fun x _ F => pb x trivial F) x).1
  let v : Tm → K := fun x => if Keep c rules x then value st.chart x else value stF.chart x
  have hvle : ∀ x, v x ≤ value stF.chart x := by
    intro x; simp only [v]; split
    · exact hle x
    · exact le_refl _
  have hvd : ∀ x, v x ≠ 0 → Der rules x := by
    intro x hne; simp only [v] at hne
    split at hne
    · exact hda x (mem_keys_of_value hne)
    · exact hdb x (mem_keys_of_value hne)
  have pv : PreSol rules (fun _ => True) (dataAt []) v := by
    intro x _ F
    by_cases hx : Keep c rules x
    · have e : v x = value st.chart x := by simp [v, hx]
      rw [e]
      refine le_trans (add_le_add_left (List.sum_le_sum fun r hr => Finset.sum_le_sum fun θ _ => ?_) _) (pa x hx F)
      by_cases hz : instAt r v x θ = 0
      · rw [hz]; exact h0 _
      · obtain ⟨hf, rfl⟩ := instAt_fires hvd hz
        unfold instAt
        rw [if_pos ⟨hf.gs, rfl⟩, if_pos ⟨hf.gs, rfl⟩]
        unfold instVal
        rw [List.map_congr_left fun z hz => ?_]
        cases z with
        | sub t => simp [litVal, v, keep_closed hd hr hf hx hz]
        | val k => rfl
        | eq x y => rfl
        | cmp o x y => rfl
    · have e : v x = value stF.chart x := by simp [v, hx]
      rw [e]
      exact le_trans (add_le_add_left (List.sum_le_sum fun r _ => Finset.sum_le_sum fun θ _ => instAt_mono h0 hvle r x θ) _) (pb x trivial F)
  refine le_antisymm (hle x) ?_
  have := (C24_below h0 (g := ⟨rules, none, approx', inf'⟩) hs.safe k1 (v := v) (fun x _ F => pv x trivial F) x).1
  rwa [show v x = value st.chart x by simp [v, show Keep c rules x from hx]] at this

end

/-! ### Buckets -/

/-- everything pending has the bucket given by `priority` -/
theorem agenda_prio {g : Solver.Cfg K} (hr : ∀ r ∈ g.rules, Safe r) {pr : Tm → Option Int} (hp : g.prio = some pr) {D : List (Tm × K)} {st : St K}
    (h : Run g D st) (hD : D = []) : ∀ x q, st.chg.agenda.get x = some q → pr x = some q := by
  induction h with
  | empty => simp [St.empty]
  | load => simp at hD
  | @init D st f cand i r h' s' hrun _ hri hc e ih =>
    have hi := sinv_run hr hrun
    have hps := initRule_pushes hi.ground (fun c as => hc _ c as hi.wf hi.ground) (hr r (List.mem_of_getElem? hri)) e
    intro x q hx
    rcases hps.agenda x q hx with hx | ⟨_, hx⟩
    · exact ih hD x q hx
    · exact hx pr hp
  | @pop D st st' hrun hall hpop ih =>
    have hi := sinv_run hr hrun
    obtain ⟨f, cand, a, hc, ha, e⟩ := hpop
    obtain ⟨_, _, k2⟩ := pop_pushes hr hi hc ha e
    intro x q hx
    rcases k2.agenda x q hx with hx | ⟨_, hx⟩
    · simp only [Dict.get_del] at hx
      split at hx
      · simp at hx
      · exact ih hD x q hx
    · exact hx pr hp

/-- Buckets are finished one after the other: once nothing is pending below bucket `p`, no item below it is touched again. -/
theorem C64_stages {c : Cfg} {rules : List (SRule K)} (hs : Setup c rules) (hd : DataSep c rules) {approx inf st1 M} {stE : St K}
    (h : SccSolver c rules approx inf st1 M stE) {f cand} {st0 st st' : St K} (hc : LawfulCand cand)
    (hi : initAll (cfg2 c M rules approx inf) f cand rules 0 St.empty = some (st0, .done)) (h1 : Pops (cfg2 c M rules approx inf) st0 st)
    (h2 : Pops (cfg2 c M rules approx inf) st st') {p : Int} (hp : ∀ b q, st.chg.agenda.get b = some q → p ≤ q)
    {x : Tm} {q : Int} (hx : prio c M x = some q) (hq : q < p) : st'.chart.get x = st.chart.get x ∧ st'.chg.agenda.get x = none := by
  obtain ⟨i1, _, i2⟩ := run_initAll (g := cfg2 c M rules approx inf) hc Run.empty (by simp [cfg2]) hi
  simp only [Nat.zero_add] at i2
  obtain ⟨r1, r2⟩ := pops_run i1 i2 h1
  suffices key : ∀ y q, prio c M y = some q → q < p → st'.chart.get y = st.chart.get y ∧ st'.chg.agenda.get y = none from key x q hx hq
  induction h2 with
  | refl =>
    intro y q hy hq
    refine ⟨rfl, ?_⟩
    cases hg : st.chg.agenda.get y with
    | none => rfl
    | some q' =>
      have := agenda_prio (g := cfg2 c M rules approx inf) hs.safe rfl r1 rfl y q' hg
      rw [hy] at this; simp only [Option.some.injEq] at this
      have := hp y q' hg
      omega
  | @step st2 st3 pa hpops hpop ih =>
    have hrun := (pops_run r1 r2 hpops).1
    have hinv := sinv_run (g := cfg2 c M rules approx inf) hs.safe hrun
    obtain ⟨fa, ca, a, hca, ha, _, e⟩ := hpop
    have hpa := agenda_prio (g := cfg2 c M rules approx inf) hs.safe rfl hrun rfl a pa ha
    have hge : p ≤ pa := by
      by_contra hlt
      have := (ih a pa hpa (by omega)).2
      rw [ha] at this; simp at this
    have ham : a ∈ Dict.keys st2.chg.agenda := (Dict.mem_keys_iff_get _ _).2 ⟨_, ha⟩
    obtain ⟨k0, k1, k2⟩ := pop_pushes (g := cfg2 c M rules approx inf) hs.safe hinv hca ham e
    intro y q hy hq
    obtain ⟨j1, j2⟩ := ih y q hy hq
    have hya : y ≠ a := by
      rintro rfl
      rw [hpa] at hy; simp only [Option.some.injEq] at hy; omega
    refine ⟨by rw [k0 y hya, j1], ?_⟩
    cases hg : st3.chg.agenda.get y with
    | none => rfl
    | some q' =>
      exfalso
      rcases k2.agenda y q' hg with hg | ⟨⟨_, r, hr, θ, hθ, ⟨t, ht, hta⟩, rfl⟩, _⟩
      · simp only [Dict.get_del] at hg
        split at hg
        · simp at hg
        · rw [j2] at hg; simp at hg
      · have hder : ∀ x ∈ Dict.keys st3.chart, Der rules x := by
          have hdd := run_der (g := cfg2 c M rules approx inf) hs.safe hrun rfl
          intro x hx
          rcases k1 x hx with rfl | hx
          · exact hdd.2 _ ((hinv.chg.ag _).1 ham)
          · exact hdd.1 x hx
        obtain ⟨q2, hq2, hle⟩ := C64_order hs hd h hr ((sat_fires hθ).mono hder) ht hy
        rw [hta] at hq2
        rw [show prio c M a = some pa from hpa] at hq2
        simp only [Option.some.injEq] at hq2
        omega

/-- `x` is defined in terms of `y` by a derivable instance, neither being an input -/
def Dep (c : Cfg) (rules : List (SRule K)) (x y : Tm) : Prop :=
  ¬ Exo c.inputs x ∧ ¬ Exo c.inputs y ∧ ∃ r ∈ rules, ∃ θ, Fires (Der rules) r θ ∧ r.head.sub θ = x ∧ ∃ t, BLit.sub t ∈ r.body ∧ t.sub θ = y

theorem Sup.succ_dep {c : Cfg} {rules : List (SRule K)} (hs : Setup c rules) {chart : Dict Tm TV} {cand os L} (h : Sup c chart cand os L) {x y : Tm}
    (hx : ∃ comp ∈ L, x ∈ comp) (hg : Ground x) : y ∈ (deps c chart cand x).getD [] ↔ Dep c rules x y := by
  constructor
  · intro hy
    obtain ⟨out, eo⟩ := h.dok x hx
    obtain ⟨l, rfl⟩ := h.key_app hs.pre hx
    rw [eo, Option.getD_some] at hy
    rcases deps_spec hs.pre.cv hs.pre.safe hs.pre.apart h.ground h.cok (h.key_vars hs.pre hx) eo with ⟨_, rfl⟩ | ⟨ei, hd⟩
    · simp at hy
    · obtain ⟨r, hr, θ, hθ, ⟨σ, hσ⟩, t, ht, e, hex⟩ := (hd y).1 hy
      have hf := h.sat.1 hθ
      rw [hs.bool] at hr hf
      obtain ⟨r0, hr0, rfl⟩ := List.mem_map.1 hr
      rw [Chart.sub_ground hg] at hσ
      exact ⟨isInput_exo hs.pre (h.key_vars hs.pre hx) ei (InstanceOf.refl _), hex, r0, hr0, θ, fires_bool.1 (hf.mono fun x => der_bool.1), hσ.symm, t, mem_bool_sub.1 ht, e⟩
  · rintro ⟨h1, h2, r, hr, θ, hf, rfl, t, ht, rfl⟩
    exact h.key_dep hs.pre hx (r := boolRule r) (by rw [hs.bool]; exact List.mem_map.2 ⟨r, hr, rfl⟩)
      (fires_bool.2 (hf.mono fun x hx => by rw [hs.bool]; exact der_bool.2 hx)) (InstanceOf.refl _) h1 (mem_bool_sub.2 ht) h2

/-- If the outputs are ground, two items are in the same bucket exactly if each depends on the other. -/
theorem C64_scc {c : Cfg} {rules : List (SRule K)} (hs : Setup c rules) (hgr : ∀ o ∈ c.outs, ∀ n ∈ vars o.head, ∃ t, BLit.sub t ∈ o.body ∧ n ∈ vars t)
    {approx inf st1 M} {st : St K} (h : SccSolver c rules approx inf st1 M st) {x y : Tm} (hx : Wanted rules c.inputs c.outs x)
    (hy : Wanted rules c.inputs c.outs y) (hxd : Der rules x) (hyd : Der rules y) (hxe : ¬ Exo c.inputs x) (hye : ¬ Exo c.inputs y) :
    prio c M x = prio c M y ↔ Relation.ReflTransGen (Dep c rules) x y ∧ Relation.ReflTransGen (Dep c rules) y x := by
  obtain ⟨cand, os, L, hS, rfl, h⟩ := prio_cases hs h
  have hkg : ∀ k, (∃ comp ∈ L, k ∈ comp) → Ground k := by
    intro k hk
    rcases hS.key_cases hs.pre hk with ho | ho
    · obtain ⟨_, o, ho, τ, h1, hv, _⟩ := (outputs_spec hs.pre.cv hs.pre.outBody hS.ground hS.cok hS.outs).1 k ho
      have : Ground (o.head.sub τ) := by
        refine ground_sub fun n hn => ?_
        obtain ⟨t, ht, hn⟩ := hgr o ho n hn
        obtain ⟨v, hv⟩ := h1 _ ht
        exact ground_of_mem (hS.ground _ ((Dict.mem_keys_iff_get _ _).2 ⟨v, hv⟩)) hn
      rw [ground_variant this hv]; exact this
    · exact ho.1
  have hkey : ∀ z, Wanted rules c.inputs c.outs z → ∃ comp ∈ L, z ∈ comp := by
    intro z hz
    obtain ⟨k, hk, σ, hσ⟩ := hS.wanted_key hs.pre (x := z) (by rw [hs.bool]; exact wanted_bool.2 hz)
    rw [Chart.sub_ground (hkg k hk)] at hσ
    rw [← hσ]; exact hk
  have hreach : ∀ z w, (∃ comp ∈ L, z ∈ comp) → (Tarjan.Reach (fun x => (deps c st1.chart cand x).getD []) z w ↔ Relation.ReflTransGen (Dep c rules) z w) := by
    intro z w hz
    constructor
    · intro hr
      have : Relation.ReflTransGen (Dep c rules) z w ∧ ∃ comp ∈ L, w ∈ comp := by
        induction hr with
        | refl => exact ⟨.refl, hz⟩
        | tail _ hs1 ih => exact ⟨ih.1.tail ((hS.succ_dep hs ih.2 (hkg _ ih.2)).1 hs1), hS.succ_key ih.2 hs1⟩
      exact this.1
    · intro hr
      have : Tarjan.Reach (fun x => (deps c st1.chart cand x).getD []) z w ∧ ∃ comp ∈ L, w ∈ comp := by
        induction hr with
        | refl => exact ⟨.refl, hz⟩
        | tail _ hs1 ih =>
          have := (hS.succ_dep hs ih.2 (hkg _ ih.2)).2 hs1
          exact ⟨ih.1.tail this, hS.succ_key ih.2 this⟩
      exact this.1
  have hval : ∀ z, Wanted rules c.inputs c.outs z → Der rules z → ¬ Exo c.inputs z → prio c (supportMap L) z = (supportMap L).get z := by
    intro z hz hd he
    obtain ⟨v, hv⟩ := hS.get_key.1 (hkey z hz)
    rcases h z hd with ⟨a, _⟩ | ⟨_, ⟨_, a⟩ | ⟨_, v', a, _, _, _, b⟩⟩
    · exact absurd a he
    · exact absurd hz a
    · rw [a, hv, b v hv]
  rw [hval x hx hxd hxe, hval y hy hyd hye, ← hreach x y (hkey x hx), ← hreach y x (hkey y hy)]
  obtain ⟨cx, hcx, hxc⟩ := hkey x hx
  obtain ⟨cy, hcy, hyc⟩ := hkey y hy
  rw [← Tarjan.C40_scc hS.tar hcx hxc]
  obtain ⟨i, hi⟩ := List.mem_iff_getElem?.1 hcx
  obtain ⟨j, hj⟩ := List.mem_iff_getElem?.1 hcy
  rw [(support_get hS.disj _ _).2 ⟨i, cx, hi, hxc, rfl⟩, (support_get hS.disj _ _).2 ⟨j, cy, hj, hyc, rfl⟩]
  constructor
  · intro e
    simp only [Option.some.injEq] at e
    have : i = j := by omega
    subst this
    rw [hi] at hj; simp only [Option.some.injEq] at hj
    rw [hj]; exact hyc
  · intro hm
    have : i = j := comp_index hS.disj hi hj hm hyc
    rw [this]

/-! ### Concrete cases -/

/-- the first entry of least priority -/
def least : Dict Tm Int → Option (Tm × Int)
  | [] => none
  | (a, p) :: d => match least d with
    | none => some (a, p)
    | some (b, q) => if p ≤ q then some (a, p) else some (b, q)

/-- run pass 2, always popping that entry -/
def execMin (g : Solver.Cfg K) (f : Nat) : Nat → St K → Option (St K)
  | 0, st => if st.chg.agenda.isEmpty then some st else none
  | n + 1, st => match least st.chg.agenda with
    | none => if st.chg.agenda.isEmpty then some st else none
    | some (a, p) => if st.chg.agenda.get a = some p ∧ st.chg.agenda.all fun e => decide (p ≤ e.2) then
        match popF g f (fun chart => indexCands ⟨chart, []⟩) st a with
        | some (st', .done) => execMin g f n st'
        | _ => none
      else none

def execPass2 (g : Solver.Cfg K) (f n : Nat) : Option (St K) :=
  match initAll g f (fun chart => indexCands ⟨chart, []⟩) g.rules 0 St.empty with
  | some (st1, .done) => execMin g f n st1
  | _ => none

theorem pops_head {g : Solver.Cfg K} {st st1 st' : St K} {p : Int} (h : PopMin g p st st1) (h' : Pops g st1 st') : Pops g st st' := by
  induction h' with
  | refl => exact .step (.refl _) h
  | step _ hs ih => exact .step ih hs

theorem execMin_sound {g : Solver.Cfg K} {f : Nat} : ∀ {n : Nat} {st st' : St K}, execMin g f n st = some st' → Pops g st st' ∧ st'.chg.agenda = [] := by
  intro n
  induction n with
  | zero =>
    intro st st' e
    simp only [execMin] at e
    split at e
    · rename_i h; cases e; exact ⟨.refl _, by simpa using h⟩
    · cases e
  | succ n ih =>
    intro st st' e
    simp only [execMin] at e
    split at e
    · split at e
      · rename_i h; cases e; exact ⟨.refl _, by simpa using h⟩
      · cases e
    · rename_i a p _
      split at e
      · rename_i hc
        split at e
        · rename_i st1 hp
          obtain ⟨h1, h2⟩ := ih e
          refine ⟨pops_head ⟨f, _, a, index_lawful, hc.1, fun b q hb => ?_, hp⟩ h1, h2⟩
          simpa using List.all_eq_true.1 hc.2 _ (Dict.mem_of_get hb)
        · cases e
      · cases e

/-- a complete call; the result is the two charts and the support map -/
def execScc (c : Cfg) (rules : List (SRule K)) (approx : K → K → Bool) (inf : K) (n : Nat) : Option (St TV × Dict Tm Int × St K) :=
  match execForward (cfg1 c.rules1) c.f 0 n St.empty with
  | none => none
  | some st1 => match support c st1.chart (indexCands ⟨st1.chart, []⟩) with
    | none => none
    | some M => (execPass2 (cfg2 c M rules approx inf) c.f n).map fun st => (st1, M, st)

theorem execScc_sound {c : Cfg} {rules : List (SRule K)} {approx inf n st1 M} {st : St K}
    (e : execScc c rules approx inf n = some (st1, M, st)) : SccSolver c rules approx inf st1 M st := by
  unfold execScc at e
  split at e
  · cases e
  · rename_i s1 e1
    split at e
    · cases e
    · rename_i M' e2
      obtain ⟨s, e3, e4⟩ := Option.map_eq_some_iff.1 e
      simp only [Prod.mk.injEq] at e4
      obtain ⟨rfl, rfl, rfl⟩ := e4
      refine ⟨execForward_sound e1, ⟨_, index_lawful, e2⟩, ?_⟩
      unfold execPass2 at e3
      split at e3
      · rename_i s0 hi
        obtain ⟨h1, h2⟩ := execMin_sound e3
        exact ⟨_, _, s0, index_lawful, hi, h1, h2⟩
      · cases e3

section Examples

private def ct (s : String) : Tm := .con (.str s)
private def e (x : Tm) : Tm := .app [ct "e", x]
private def p (x : Tm) : Tm := .app [ct "p", x]
private def w (x : Tm) : Tm := .app [ct "w", x]
private def goal : Tm := .app [ct "goal"]
private def junk : Tm := .app [ct "junk"]
private def X : Tm := .var 0
private def a : Tm := ct "a"
private def b : Tm := ct "b"
private def cvs (i : Nat) : Nat := 100 + i

/-- `p(X) += e(X) * e(X).  goal += p(a).  junk += goal.` and the data `e(a) += 2.  e(b) += 3.` -/
private def prog : List (SRule ℕ) :=
  [⟨p X, [.sub (e X), .sub (e X)]⟩, ⟨goal, [.sub (p a)]⟩, ⟨junk, [.sub goal]⟩, ⟨e a, [.val 2]⟩, ⟨e b, [.val 3]⟩]

/-- inputs `e(_)`, outputs `goal` -/
private def c1 : Cfg := ⟨prog.map boolRule, [e X], [⟨goal, []⟩], cvs, 30⟩
/-- inputs `e(_)`, outputs `p(_)` -/
private def c2 : Cfg := ⟨prog.map boolRule, [e X], [⟨p X, []⟩], cvs, 30⟩

private def res1 := execScc c1 prog (fun a b => a == b) 0 40
private def res2 := execScc c2 prog (fun a b => a == b) 0 40

private def show1 (r : Option (St TV × Dict Tm Int × St ℕ)) : Option (List (Option Int) × List ℕ) :=
  r.map fun r => ([e a, e b, p a, p b, goal, junk].map r.2.1.get, [e a, e b, p a, p b, goal, junk].map (value r.2.2.chart))

-- `p(b)` and `junk` are not needed for `goal`
example : show1 res1 = some ([none, none, some 1, none, some 2, none], [2, 3, 4, 0, 4, 0]) := by decide +kernel
-- all of `p` is kept although only the pattern `p(X)` has a number
example : show1 res2 = some ([none, none, none, none, none, none], [2, 3, 4, 9, 0, 0]) := by decide +kernel

/-- the same with data that is itself computed: `e(X) += w(X).  w(a) += 2.` -/
private def prog3 : List (SRule ℕ) :=
  [⟨p X, [.sub (e X), .sub (e X)]⟩, ⟨goal, [.sub (p a)]⟩, ⟨e X, [.sub (w X)]⟩, ⟨w a, [.val 2]⟩]
private def c3 : Cfg := ⟨prog3.map boolRule, [e X], [⟨goal, []⟩], cvs, 30⟩
private def res3 := execScc c3 prog3 (fun a b => a == b) 0 40
private def res3' := execForward ⟨prog3, none, fun a b => a == b, 0⟩ 30 0 40 St.empty

/-- `p(b) += w(a). w(a) += 2. p(a) += 1.`, where the input `p(a)` overlaps the output `p(_)` -/
private def prog4 : List (SRule ℕ) := [⟨p b, [.sub (w a)]⟩, ⟨w a, [.val 2]⟩, ⟨p a, [.val 1]⟩]
private def c4 : Cfg := ⟨prog4.map boolRule, [p a], [⟨p X, []⟩], cvs, 30⟩
private def res4 := execScc c4 prog4 (fun a b => a == b) 0 40
private def res4' := execForward ⟨prog4, none, fun a b => a == b, 0⟩ 30 0 40 St.empty

example : res3.map (fun r => (prio c3 r.2.1 (w a), value r.2.2.chart goal)) = some (none, 0) := by decide +kernel
example : res3'.map (fun r => value r.chart goal) = some 4 := by decide +kernel
example : res4.map (fun r => (prio c4 r.2.1 (w a), value r.2.2.chart (p b))) = some (none, 0) := by decide +kernel
example : res4'.map (fun r => value r.chart (p b)) = some 2 := by decide +kernel

private def subsOf (r : SRule ℕ) : List Tm := r.body.filterMap fun
  | .sub t => some t
  | _ => none

/-- a check that implies the hypotheses on rules -/
private def okB (r : SRule ℕ) : Bool :=
  decide (∀ n ∈ vars r.head, n < 100 ∧ ∃ t ∈ subsOf r, n ∈ vars t) &&
  (r.body.all fun z => decide (∀ n ∈ litVars z, n < 100 ∧ ∃ t ∈ subsOf r, n ∈ vars t)) &&
  ((r.head :: subsOf r).all fun
    | .app (.con _ :: _) => true
    | _ => false)

private theorem mem_subsOf {r : SRule ℕ} {t : Tm} : t ∈ subsOf r ↔ BLit.sub t ∈ r.body := by
  unfold subsOf
  rw [List.mem_filterMap]
  constructor
  · rintro ⟨z, hz, e⟩
    cases z <;> simp at e
    subst e; exact hz
  · intro h; exact ⟨_, h, rfl⟩

private theorem ok_spec {r : SRule ℕ} (h : okB r = true) : Safe r ∧ (∃ f as, r.head = .app (.con f :: as)) ∧ ∀ i, ¬ InRule r (cvs i) := by
  simp only [okB, Bool.and_eq_true, decide_eq_true_eq, List.all_eq_true] at h
  obtain ⟨⟨h1, h2⟩, h3⟩ := h
  have h4 : ∀ n, InRule r n → n < 100 ∧ ∃ t ∈ subsOf r, n ∈ vars t := by
    rintro n (hn | ⟨z, hz, hn⟩)
    · exact h1 n hn
    · exact h2 z hz n hn
  have h5 : ∀ t ∈ r.head :: subsOf r, ∃ f as, t = .app (.con f :: as) := by
    intro t ht
    have := h3 t ht
    split at this
    · exact ⟨_, _, rfl⟩
    · simp at this
  refine ⟨⟨fun n hn => ?_, fun t ht => h5 t (by simp [mem_subsOf.2 ht])⟩, h5 _ (by simp), fun i hi => ?_⟩
  · obtain ⟨_, t, ht, hn⟩ := h4 n hn
    exact .sub (mem_subsOf.1 ht) hn
  · have := (h4 _ hi).1
    simp [cvs] at this

private theorem setup_of {inputs : List Tm} {outs : List (SRule TV)} {rules : List (SRule ℕ)} (h : rules.all okB = true)
    (hi : ∀ i ∈ inputs, ∀ n ∈ vars i, n < 100) (ho : ∀ o ∈ outs, o.body = []) (hok : ∀ o ∈ outs, OutOk inputs o) :
    Setup ⟨rules.map boolRule, inputs, outs, cvs, 30⟩ rules := by
  have h := fun r hr => ok_spec (List.all_eq_true.1 h r hr)
  refine ⟨rfl, fun i j e => by simpa [cvs] using e, fun r hr => (h r hr).1, fun r hr => (h r hr).2.1, fun r hr => (h r hr).2.2, fun i h n hn => ?_, fun o h t ht => ?_, hok⟩
  · have := hi i h _ hn
    simp [cvs] at this
  · rw [ho o h] at ht; simp at ht

private theorem setup1 : Setup c1 prog := by
  refine setup_of (by decide +kernel) (by decide +kernel) (by simp) ?_
  intro o ho
  simp only [List.mem_singleton] at ho
  subst ho
  left
  simp [goal, ct]

private theorem setup2 : Setup c2 prog := by
  refine setup_of (by decide +kernel) (by decide +kernel) (by simp) ?_
  intro o ho
  simp only [List.mem_singleton] at ho
  subst ho
  refine .inr ⟨⟨_, _, rfl⟩, .inl ?_⟩
  rintro τ ⟨i, hi, σ, hσ⟩
  simp only [List.mem_singleton] at hi
  subst hi
  simp [e, p, ct] at hσ

private theorem setup3 : Setup c3 prog3 := by
  refine setup_of (by decide +kernel) (by decide +kernel) (by simp) ?_
  intro o ho
  simp only [List.mem_singleton] at ho
  subst ho
  left
  simp [goal, ct]

private theorem sep1 : DataSep c1 prog := by
  rintro r hr θ hf ⟨i, hi, σ, hσ⟩ t ht
  simp only [c1, List.mem_singleton] at hi
  subst hi
  simp only [prog, List.mem_cons, List.not_mem_nil, or_false] at hr
  rcases hr with rfl | rfl | rfl | rfl | rfl
  · simp [e, p, ct] at hσ
  · simp [e, goal, ct] at hσ
  · simp [e, junk, ct] at hσ
  · simp at ht
  · simp at ht

-- the hypotheses of the theorems are met
example : ∃ st1 M st stF, Setup c1 prog ∧ DataSep c1 prog ∧ SccSolver c1 prog (fun a b => a == b) 0 st1 M st ∧
    ForwardChaining ⟨prog, none, fun a b => a == b, 0⟩ St.empty stF ∧ IsOut prog c1.outs goal ∧ value st.chart goal = 4 ∧ value stF.chart goal = 4 := by
  have h1 : res1.map (fun r => value r.2.2.chart goal) = some 4 := by decide +kernel
  have h2 : (execForward ⟨prog, none, fun a b => a == b, 0⟩ 30 0 40 St.empty).map (fun r => value r.chart goal) = some 4 := by decide +kernel
  obtain ⟨⟨st1, M, st⟩, e1, v1⟩ := Option.map_eq_some_iff.1 h1
  obtain ⟨stF, e2, v2⟩ := Option.map_eq_some_iff.1 h2
  exact ⟨st1, M, st, stF, setup1, sep1, execScc_sound e1, execForward_sound e2,
    ⟨⟨goal, []⟩, by simp [c1], .var, by simp, by simp, by simp, sub_id _⟩, v1, v2⟩

/-- Data that is itself computed is lost: the program `p(X) += e(X) * e(X). goal += p(a).` with input `e(_)` and the data
`e(X) += w(X). w(a) += 2.` gives the output `goal` the value 4 in an ordinary run, and none here, because `w(a)` is no input and the
analysis of dependencies stops at the inputs. -/
theorem C64_data_lost : ∃ st1 M st stF, Setup c3 prog3 ∧ SccSolver c3 prog3 (fun a b => a == b) 0 st1 M st ∧
    ForwardChaining ⟨prog3, none, fun a b => a == b, 0⟩ St.empty stF ∧ IsOut prog3 c3.outs goal ∧
    value stF.chart goal = 4 ∧ value st.chart goal = 0 := by
  have h1 : res3.map (fun r => value r.2.2.chart goal) = some 0 := by decide +kernel
  have h2 : res3'.map (fun r => value r.chart goal) = some 4 := by decide +kernel
  obtain ⟨⟨st1, M, st⟩, e1, v1⟩ := Option.map_eq_some_iff.1 h1
  obtain ⟨stF, e2, v2⟩ := Option.map_eq_some_iff.1 h2
  exact ⟨st1, M, st, stF, setup3, execScc_sound e1, execForward_sound e2,
    ⟨⟨goal, []⟩, by simp [c3], .var, by simp, by simp, by simp, sub_id _⟩, v2, v1⟩

/-- An output that overlaps an input loses its dependencies: with input `p(a)`, output `p(_)` and `p(b) += w(a). w(a) += 2. p(a) += 1.`
the output `p(b)` has the value 2 in an ordinary run and none here. -/
theorem C64_overlap_lost : ∃ st1 M st stF, SccSolver c4 prog4 (fun a b => a == b) 0 st1 M st ∧ DataSep c4 prog4 ∧
    ForwardChaining ⟨prog4, none, fun a b => a == b, 0⟩ St.empty stF ∧ IsOut prog4 c4.outs (p b) ∧
    value stF.chart (p b) = 2 ∧ value st.chart (p b) = 0 := by
  have h1 : res4.map (fun r => value r.2.2.chart (p b)) = some 0 := by decide +kernel
  have h2 : res4'.map (fun r => value r.chart (p b)) = some 2 := by decide +kernel
  obtain ⟨⟨st1, M, st⟩, e1, v1⟩ := Option.map_eq_some_iff.1 h1
  obtain ⟨stF, e2, v2⟩ := Option.map_eq_some_iff.1 h2
  refine ⟨st1, M, st, stF, execScc_sound e1, ?_, execForward_sound e2,
    ⟨⟨p X, []⟩, by simp [c4], fun _ => b, by simp, by simp, by simp, by simp [p, X, ct]⟩, v2, v1⟩
  rintro r hr θ hf ⟨i, hi, σ, hσ⟩ t ht
  simp only [c4, List.mem_singleton] at hi
  subst hi
  simp only [prog4, List.mem_cons, List.not_mem_nil, or_false] at hr
  rcases hr with rfl | rfl | rfl
  · simp [p, a, b, ct] at hσ
  · simp at ht
  · simp at ht

end Examples

end SccSolver
end Verif
