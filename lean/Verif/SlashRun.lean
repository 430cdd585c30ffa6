/-
What the loops of the slash and left-corner transformations produce (`Slash.lean`), rule by rule, in terms of the
contributions of `SlashSem.lean`.
-/
import Verif.SlashAlg
import Verif.PruneThm
import Verif.ProgIndexThm
import Verif.UnfoldMono

set_option linter.unusedSectionVars false
set_option linter.unusedSimpArgs false

namespace Verif
open Tm Heap Sem
open Solver (noHeap)

namespace Slash
open Linearize (Sigs isBuiltin)
open Unfold (contribAt mapRule mapLit subRule subLit derefR isInput mapRule_sub rvars_map bodyVars_map)
open Classical
variable {W K : Type} [CSemi W] [CSemi K]

/-! ### Terms -/

/-- functor and arity -/
def sigOf : Tm → Option (Const × Nat)
  | .app (.con c :: as) => some (c, as.length)
  | _ => none

theorem sigOf_sub {t : Tm} (h : Named t) (σ : Nat → Tm) : sigOf (t.sub σ) = sigOf t := by
  obtain ⟨c, as, rfl⟩ := h
  simp [sigOf]

theorem sigOf_gsub {t : Tm} (h : Named t) (θ : Nat → GTm) : sigOf (gsub θ t).1 = sigOf t := sigOf_sub h _

theorem sigOf_hfn {t u : Tm} (ht : Named t) (h : sigOf u = sigOf t) : hfn u = hfn t ∧ Named u := by
  obtain ⟨c, as, rfl⟩ := ht
  unfold sigOf at h
  split at h
  · simp at h; exact ⟨by simp [hfn, h.1], ⟨_, _, rfl⟩⟩
  · simp at h

theorem sigOf_builtin {sig : Sigs} {t u : Tm} (ht : Named t) (h : sigOf u = sigOf t) : isBuiltin sig u = isBuiltin sig t := by
  obtain ⟨c, as, rfl⟩ := ht
  unfold sigOf at h
  split at h
  · simp at h; simp [isBuiltin, h.1, h.2]
  · simp at h

theorem inst_sig {t : Tm} (h : Named t) {x : GTm} (hx : Inst t x) : sigOf x.1 = sigOf t := by
  obtain ⟨θ, rfl⟩ := hx; exact sigOf_gsub h θ
theorem inst_hfn {t : Tm} (h : Named t) {x : GTm} (hx : Inst t x) : hfn x.1 = hfn t := by
  obtain ⟨θ, rfl⟩ := hx; exact hfn_gsub h θ
theorem inst_builtin {sig : Sigs} {t : Tm} (h : Named t) {x : GTm} (hx : Inst t x) : isBuiltin sig x.1 = isBuiltin sig t := by
  obtain ⟨θ, rfl⟩ := hx; exact Prune.isBuiltin_gsub h θ

theorem inst_of_instanceOf {t s : Tm} (h : InstanceOf t s) {x : GTm} (hx : Inst t x) : Inst s x := by
  obtain ⟨σ, rfl⟩ := h
  obtain ⟨θ, rfl⟩ := hx
  exact ⟨_, (Unfold.gsub_sub σ θ s).symm⟩

theorem inst_variant {t s : Tm} (h : Variant s t) (x : GTm) : Inst t x ↔ Inst s x :=
  ⟨inst_of_instanceOf h.instanceOf, inst_of_instanceOf h.symm.instanceOf⟩

/-- unifiable terms have a common ground instance, and conversely if they share no variables -/
theorem meet_of_unify {s t : Tm} {θ : Nat → Tm} (h : s.sub θ = t.sub θ) : ∃ x, Inst s x ∧ Inst t x := by
  refine ⟨gsub (fun _ => g0) (s.sub θ), ?_, ?_⟩
  · exact ⟨_, (Unfold.gsub_sub θ _ s).symm⟩
  · rw [h]; exact ⟨_, (Unfold.gsub_sub θ _ t).symm⟩

theorem unify_of_meet {s t : Tm} (hd : Disjoint (vars s) (vars t)) {x : GTm} (h : Inst s x) (h' : Inst t x) : ∃ θ, s.sub θ = t.sub θ := by
  obtain ⟨θ, rfl⟩ := h
  obtain ⟨τ, h'⟩ := h'
  refine ⟨fun n => if n ∈ vars s then (θ n).1 else (τ n).1, ?_⟩
  have e1 : s.sub (fun n => if n ∈ vars s then (θ n).1 else (τ n).1) = (gsub θ s).1 := sub_congr fun n hn => by simp [hn]
  have e2 : t.sub (fun n => if n ∈ vars s then (θ n).1 else (τ n).1) = (gsub τ t).1 := sub_congr fun n hn => by
    have : n ∉ vars s := fun h => (Finset.disjoint_left.1 hd h) hn
    simp [this]
  rw [e1, e2, h']

/-! ### Tests -/

/-- whether the term counts as an input -/
def Exo (c : Cfg) (t : Tm) : Prop := isBuiltin c.sig t = true ∨ ∃ i ∈ c.inputs, ∃ x, Inst i x ∧ Inst t x
/-- ... the same for the instances of `x` only -/
def ExoH (c : Cfg) (t : Tm) : Prop := isBuiltin c.sig t = true ∨ ∃ i ∈ c.inputs, ∃ x, Inst i x ∧ Inst c.X x ∧ Inst t x
/-- the test of `_is_useful_other`: variables shared between the two terms are the same -/
def Useful (c : Cfg) (t : Tm) : Prop := ∃ u ∈ c.useful, ∃ θ, t.sub θ = u.sub θ
/-- ... up to renaming -/
def UsefulN (c : Cfg) (t : Tm) : Prop := ∃ u ∈ c.useful, ∃ x, Inst t x ∧ Inst u x

theorem good_noHeap : Good noHeap := good_iff_acyclic.2 acyclic_empty

theorem respects_noHeap (τ : Nat → Tm) : Respects noHeap τ := by intro n t e; simp [noHeap] at e

theorem unifies_iff {f : Nat} {x y : Tm} {b : Bool} (e : unifiesF f x y noHeap = some b) : b = true ↔ ∃ θ, x.sub θ = y.sub θ :=
  DisjointEst.empty_unifies e

theorem isInput_heap {f : Nat} {q : Tm} {h : Heap} (hg : Good h) : ∀ {ts : List Tm} {b : Bool}, isInput f q h ts = some b →
    (b = true ↔ ∃ t ∈ ts, ∃ τ, Respects h τ ∧ t.sub τ = q.sub τ)
  | [], b, e => by simp [isInput] at e; simp [← e]
  | t :: ts, b, e => by
    rw [isInput] at e
    cases h1 : unifiesF f t q h with
    | none => simp [h1] at e
    | some b1 =>
      have c1 := C02_unifies (good_iff_acyclic.1 hg) h1
      cases b1 with
      | true =>
        simp only [h1, Option.some.injEq] at e
        subst e
        simp only [true_iff]
        exact ⟨t, by simp, c1.1 rfl⟩
      | false =>
        simp only [h1] at e
        rw [isInput_heap hg e]
        have : ¬ ∃ τ, Respects h τ ∧ t.sub τ = q.sub τ := fun h => by simpa using c1.2 h
        constructor
        · rintro ⟨u, hu, h⟩; exact ⟨u, by simp [hu], h⟩
        · rintro ⟨u, hu, h⟩
          rcases List.mem_cons.1 hu with rfl | hu
          · exact absurd h this
          · exact ⟨u, hu, h⟩

theorem exo_spec {c : Cfg} {t : Tm} {b : Bool} (hd : ∀ i ∈ c.inputs, Disjoint (vars i) (vars t)) (e : exo c noHeap t = some b) : b = true ↔ Exo c t := by
  unfold exo at e
  unfold Exo
  cases hb : isBuiltin c.sig t with
  | true => simp [hb] at e; simp [← e]
  | false =>
    simp only [hb, Bool.false_eq_true, if_false] at e
    rw [isInput_heap good_noHeap e]
    simp only [Bool.false_eq_true, false_or]
    constructor
    · rintro ⟨i, hi, τ, _, h⟩; exact ⟨i, hi, meet_of_unify h⟩
    · rintro ⟨i, hi, x, h1, h2⟩
      obtain ⟨θ, h⟩ := unify_of_meet (hd i hi) h1 h2
      exact ⟨i, hi, θ, respects_noHeap θ, h⟩

theorem anyUnifies_heap {f : Nat} {x : Tm} {h : Heap} (hg : Good h) : ∀ {ts : List Tm} {b : Bool}, anyUnifies f x h ts = some b →
    (b = true ↔ ∃ t ∈ ts, ∃ τ, Respects h τ ∧ x.sub τ = t.sub τ)
  | [], b, e => by simp [anyUnifies] at e; simp [← e]
  | t :: ts, b, e => by
    rw [anyUnifies] at e
    cases h1 : unifiesF f x t h with
    | none => simp [h1] at e
    | some b1 =>
      have c1 := C02_unifies (good_iff_acyclic.1 hg) h1
      cases b1 with
      | true =>
        simp only [h1, Option.some.injEq] at e
        subst e
        simp only [true_iff]
        exact ⟨t, by simp, c1.1 rfl⟩
      | false =>
        simp only [h1] at e
        rw [anyUnifies_heap hg e]
        have : ¬ ∃ τ, Respects h τ ∧ x.sub τ = t.sub τ := fun h => by simpa using c1.2 h
        constructor
        · rintro ⟨u, hu, h⟩; exact ⟨u, by simp [hu], h⟩
        · rintro ⟨u, hu, h⟩
          rcases List.mem_cons.1 hu with rfl | hu
          · exact absurd h this
          · exact ⟨u, hu, h⟩

theorem useful_spec {c : Cfg} {t : Tm} {b : Bool} (e : usefulOther c noHeap t = some b) : b = true ↔ Useful c t := by
  unfold usefulOther at e
  rw [anyUnifies_heap good_noHeap e]
  unfold Useful
  constructor
  · rintro ⟨u, hu, τ, _, h⟩; exact ⟨u, hu, τ, h⟩
  · rintro ⟨u, hu, τ, h⟩; exact ⟨u, hu, τ, respects_noHeap τ, h⟩

theorem other_spec {c : Cfg} {t o : Tm} (hd : ∀ i ∈ c.inputs, Disjoint (vars i) (vars t)) (e : other c noHeap t = some o) :
    o = if Exo c t then t else if Useful c t then otherT c.ot t else t := by
  unfold other at e
  cases h1 : exo c noHeap t with
  | none => simp [h1] at e
  | some b =>
    have c1 := exo_spec hd h1
    cases b with
    | true => simp [h1] at e; rw [if_pos (c1.1 rfl), e]
    | false =>
      have : ¬ Exo c t := fun h => by simpa using c1.2 h
      rw [if_neg this]
      simp only [h1] at e
      cases h2 : usefulOther c noHeap t with
      | none => simp [h2] at e
      | some b =>
        have c2 := useful_spec h2
        cases b with
        | true => simp [h2] at e; rw [if_pos (c2.1 rfl), e]
        | false =>
          have : ¬ Useful c t := fun h => by simpa using c2.2 h
          rw [if_neg this]
          simp [h2] at e
          exact e.symm

/-! ### Weighted sums of rules -/

/-- size of a new rule -/
noncomputable def kw (ot : Const) (t : K) (rk : WRule W × Kind) : K := match rk.2 with
  | .base | .ss _ | .rso => t
  | .ro => t ^ 2
  | .o _ | .oo _ => if hfn rk.1.head = some ot then t else t ^ 3

/-- what the rules contribute, with these sizes -/
noncomputable def Val (φ : W → K) (ot : Const) (t : K) (l : List (WRule W × Kind)) (V : GTm → K) (z : GTm) : K :=
  (l.map fun rk => kw ot t rk * contrib (mapRule φ rk.1) V z).sum

theorem Val_append (φ : W → K) (ot : Const) (t : K) (l m : List (WRule W × Kind)) (V : GTm → K) (z : GTm) :
    Val φ ot t (l ++ m) V z = Val φ ot t l V z + Val φ ot t m V z := by simp [Val]
theorem Val_nil (φ : W → K) (ot : Const) (t : K) (V : GTm → K) (z : GTm) : Val φ ot t [] V z = 0 := rfl

theorem hfn_ren (ρ : Nat → Nat) (t : Tm) : hfn (t.sub fun n => .var (ρ n)) = hfn t := by
  cases t with
  | var n => rfl
  | con c => rfl
  | app as =>
    cases as with
    | nil => rfl
    | cons a as => cases a <;> simp [hfn]

/-- what `add_rule` appends -/
theorem add_spec {fv : Nat → Nat} (hfv : Function.Injective fv) (st : St W) (r : WRule W) (kind : Kind) :
    ∃ r', (st.add fv r kind).out = st.out ++ [(r', kind)] ∧ st.k ≤ (st.add fv r kind).k ∧ hfn r'.head = hfn r.head ∧
      ∀ (K : Type) [CSemi K] (φ : W → K) V z, contrib (mapRule φ r') V z = contrib (mapRule φ r) V z := by
  obtain ⟨ρ, h1, h2, h3⟩ := freshRule_spec hfv st.k r
  refine ⟨(freshRule fv st.k r).1, rfl, h3, ?_, fun K _ φ V z => contrib_fresh hfv _ _ _ _ _⟩
  rw [h1]; exact hfn_ren ρ _

theorem add_Val {fv : Nat → Nat} (hfv : Function.Injective fv) (st : St W) (r : WRule W) (kind : Kind) :
    ∃ new, (st.add fv r kind).out = st.out ++ new ∧ st.k ≤ (st.add fv r kind).k ∧ (∀ rk ∈ new, hfn rk.1.head = hfn r.head) ∧
      ∀ (K : Type) [CSemi K] (φ : W → K) ot t V z, Val φ ot t new V z = kw ot t (r, kind) * contrib (mapRule φ r) V z := by
  obtain ⟨r', h1, h2, h3, h4⟩ := add_spec hfv st r kind
  refine ⟨[(r', kind)], h1, h2, by simpa using h3, fun K _ φ ot t V z => ?_⟩
  simp only [Val, List.map_cons, List.map_nil, List.sum_cons, List.sum_nil, add_zero, h4 K]
  congr 1
  unfold kw
  cases kind <;> simp [h3]

/-! ### Variables -/

/-- the term uses no variable that will be allocated -/
def OldT (fv : Nat → Nat) (k : Nat) (t : Tm) : Prop := ∀ n ∈ vars t, ∀ j ≥ k, n ≠ fv j

theorem OldT.mono {fv : Nat → Nat} {k k' : Nat} {t : Tm} (h : OldT fv k t) (hk : k ≤ k') : OldT fv k' t :=
  fun n hn j hj => h n hn j (by omega)

theorem old_fresh {fv : Nat → Nat} (hfv : Function.Injective fv) (k : Nat) (s : Tm) : OldT fv (freshV fv k s).2 (freshV fv k s).1 := by
  intro n hn j hj e
  obtain ⟨i, _, h2, rfl⟩ := (freshV_spec hfv k s).2.2 n hn
  have := hfv e; omega

theorem old_disjoint {fv : Nat → Nat} (hfv : Function.Injective fv) {k : Nat} {t : Tm} (h : OldT fv k t) (s : Tm) :
    Disjoint (vars t) (vars (freshV fv k s).1) := by
  rw [Finset.disjoint_left]
  intro n h1 h2
  obtain ⟨i, hi, _, rfl⟩ := (freshV_spec hfv k s).2.2 n h2
  exact h _ h1 i hi rfl

/-! ### The loop over the rules -/

/-- the position of a rule -/
def slotOf (pos : Nat → Option Nat) (r : WRule W) (i : Nat) : Slot W :=
  match pos i with
  | none => none
  | some j => match r.body[j]? with
    | some (.sub q) => some (r.body.take j, q, r.body.drop (j + 1))
    | _ => none

/-- the items with new names -/
def NewItem (c : Cfg) (x : GTm) : Prop := hfn x.1 = some c.sl ∨ hfn x.1 = some c.ot

/-- what the rules `ss` contribute to `y/x` -/
noncomputable def ssval (φ : W → K) (c : Cfg) (V : GTm → K) (r : WRule W) (s : Slot W) (y x : GTm) : K :=
  if c.lct then match s with
    | none => 0
    | some (L, q, R) => isum fun w => coef r.head (L.map (mapLit φ)) q (R.map (mapLit φ)) V w x * V (sitem c.sl y w)
  else if Inst c.X x then sval φ V r s (fun z => V (sitem c.sl z x)) y else 0

/-- what the loop needs to know about a rule -/
structure RuleOK (c : Cfg) (Y : Nat) (pos : Nat → Option Nat) (r : WRule W) (i : Nat) : Prop where
  named : NamedRule r
  notSl : hfn r.head ≠ some c.sl
  notOt : hfn r.head ≠ some c.ot
  notExo : ¬ Exo c r.head
  inputs : ∀ t ∈ c.inputs, ∀ n ∈ rvars r, n ∉ vars t
  X : ∀ n ∈ rvars r, n ∉ vars c.X
  Y : Y ∉ rvars r
  used : ∀ L q R, slotOf pos r i = some (L, q, R) → q ∈ c.useful

theorem rvars_slot {h : Tm} {L : List (Lit W)} {q : Tm} {R : List (Lit W)} (φ : W → K) :
    rvars (⟨h, L.map (mapLit φ) ++ .sub q :: R.map (mapLit φ)⟩ : WRule K) = rvars ⟨h, L ++ .sub q :: R⟩ := by
  simp only [rvars, bodyVars_append, bodyVars_cons, bodyVars_map]
  rfl

theorem map_slot (φ : W → K) (h : Tm) (L : List (Lit W)) (q : Tm) (R : List (Lit W)) :
    mapRule φ ⟨h, L ++ .sub q :: R⟩ = ⟨h, L.map (mapLit φ) ++ .sub q :: R.map (mapLit φ)⟩ := by
  simp [mapRule, mapLit]

/-- the rule `ss` -/
theorem ssRule_spec {c : Cfg} {Y : Nat} {r : WRule W} {L : List (Lit W)} {q : Tm} {R : List (Lit W)} (hb : r.body = L ++ .sub q :: R)
    (hX : ∀ n ∈ rvars r, n ∉ vars c.X) (hY : Y ∉ rvars r) (φ : W → K) (V : GTm → K) (y x : GTm) :
    contrib (mapRule φ (ssRule c Y r.head L q R)) V (sitem c.sl y x) = ssval φ c V r (some (L, q, R)) y x := by
  have hr : r = ⟨r.head, L ++ .sub q :: R⟩ := by cases r; simp only at hb; rw [hb]
  have hv : rvars (⟨r.head, L.map (mapLit φ) ++ .sub q :: R.map (mapLit φ)⟩ : WRule K) = rvars r := by
    rw [rvars_slot, ← hr]
  unfold ssRule ssval
  by_cases hl : c.lct = true
  · rw [if_pos hl, if_pos hl]
    have e : mapRule φ (⟨slashT c.sl (.var Y) q, L ++ R ++ [.sub (slashT c.sl (.var Y) r.head)]⟩ : WRule W) =
        ⟨slashT c.sl (.var Y) q, L.map (mapLit φ) ++ R.map (mapLit φ) ++ [.sub (slashT c.sl (.var Y) r.head)]⟩ := by
      simp [mapRule, mapLit]
    rw [e, contrib_lc]
    rw [hv]; exact hY
  · rw [if_neg hl, if_neg hl, map_slot, contrib_ss]
    · rfl
    · rw [hv, Finset.disjoint_left]; exact hX

theorem named_slashT (sl : Const) (y x : Tm) : Named (slashT sl y x) := ⟨_, _, rfl⟩
theorem named_otherT (ot : Const) (x : Tm) : Named (otherT ot x) := ⟨_, _, rfl⟩

theorem ssRule_head (c : Cfg) (Y : Nat) (h : Tm) (L : List (Lit W)) (q : Tm) (R : List (Lit W)) : ∃ a b, (ssRule c Y h L q R).head = slashT c.sl a b := by
  unfold ssRule; split <;> exact ⟨_, _, rfl⟩

theorem ssRule_zero {c : Cfg} {Y : Nat} {h : Tm} {L : List (Lit W)} {q : Tm} {R : List (Lit W)} (φ : W → K) (V : GTm → K) {z : GTm} (hz : hfn z.1 ≠ some c.sl) :
    contrib (mapRule φ (ssRule c Y h L q R)) V z = 0 := by
  obtain ⟨a, b, e⟩ := ssRule_head c Y h L q R
  refine contrib_zero fun θ e' => hz ?_
  rw [← e']
  show hfn (gsub θ (ssRule c Y h L q R).head).1 = _
  rw [e, hfn_gsub (named_slashT _ _ _)]; rfl

theorem kw_ss (ot : Const) (t : K) (r : WRule W) (i : Nat) : kw ot t (r, .ss i) = t := rfl
theorem kw_o (ot : Const) (t : K) (r : WRule W) (i : Nat) : kw ot t (r, .o i) = if hfn r.head = some ot then t else t ^ 3 := rfl
theorem kw_oo (ot : Const) (t : K) (r : WRule W) (i : Nat) : kw ot t (r, .oo i) = if hfn r.head = some ot then t else t ^ 3 := rfl

/-- a rule whose head is wrapped or not -/
theorem wrap_spec {c : Cfg} (hne : c.sl ≠ c.ot) {h : Tm} (hn : Named h) (h1 : hfn h ≠ some c.sl) (h2 : hfn h ≠ some c.ot) (b : List (Lit W)) (P : Prop)
    (φ : W → K) (t : K) (V : GTm → K) :
    (∀ y x, (if hfn (if P then otherT c.ot h else h) = some c.ot then t else t ^ 3) * contrib (mapRule φ ⟨if P then otherT c.ot h else h, b⟩) V (sitem c.sl y x) = 0) ∧
    (∀ y, (if hfn (if P then otherT c.ot h else h) = some c.ot then t else t ^ 3) * contrib (mapRule φ ⟨if P then otherT c.ot h else h, b⟩) V (oitem c.ot y) =
      t * if P then contrib (mapRule φ ⟨h, b⟩) V y else 0) ∧
    ∀ y, ¬ NewItem c y → (if hfn (if P then otherT c.ot h else h) = some c.ot then t else t ^ 3) * contrib (mapRule φ ⟨if P then otherT c.ot h else h, b⟩) V y =
      t ^ 3 * if P then 0 else contrib (mapRule φ ⟨h, b⟩) V y := by
  by_cases hP : P
  · simp only [hP, if_true]
    have : hfn (otherT c.ot h) = some c.ot := rfl
    rw [if_pos this]
    refine ⟨fun y x => ?_, fun y => ?_, fun y hy => ?_⟩
    · unfold mapRule
      rw [contrib_hfn (named_otherT _ _), mul_zero]
      rw [this, hfn_sitem]; simpa using hne.symm
    · unfold mapRule; rw [contrib_other]
    · unfold mapRule
      rw [contrib_hfn (named_otherT _ _), mul_zero, mul_zero]
      rw [this]; intro e; exact hy (.inr e.symm)
  · simp only [hP, if_false]
    rw [if_neg h2]
    refine ⟨fun y x => ?_, fun y => ?_, fun y hy => rfl⟩
    · unfold mapRule
      rw [contrib_hfn hn, mul_zero]
      rw [hfn_sitem]; exact h1
    · unfold mapRule
      rw [contrib_hfn hn, mul_zero, mul_zero]
      rw [hfn_oitem]; exact h2

/-- what `ruleStep` appends -/
theorem ruleStep_spec {c : Cfg} (hfv : Function.Injective c.fv) (hne : c.sl ≠ c.ot) {Y : Nat} {pos : Nat → Option Nat} {st st' : St W} {r : WRule W} {i : Nat}
    (ok : RuleOK c Y pos r i) (e : ruleStep c Y pos st r i = some st') :
    ∃ new, st'.out = st.out ++ new ∧ st.k ≤ st'.k ∧
      (∀ L q R, slotOf pos r i = some (L, q, R) → r.body = L ++ .sub q :: R ∧ isBuiltin c.sig q = false ∧
        ((∃ z, Inst c.X z ∧ Inst q z) → ∀ z, Inst q z → Inst c.X z)) ∧
      ∀ (K : Type) [CSemi K] (φ : W → K) t V,
        (∀ y x, Val φ c.ot t new V (sitem c.sl y x) = t * ssval φ c V r (slotOf pos r i) y x) ∧
        (∀ y, Val φ c.ot t new V (oitem c.ot y) = t * if Useful c r.head then gval φ c.ot c.X (Exo c) V r (slotOf pos r i) y else 0) ∧
        ∀ y, ¬ NewItem c y → Val φ c.ot t new V y = t ^ 3 * if Useful c r.head then 0 else gval φ c.ot c.X (Exo c) V r (slotOf pos r i) y := by
  have hdI : ∀ u, vars u ⊆ rvars r → ∀ t ∈ c.inputs, Disjoint (vars t) (vars u) := fun u hu t ht => by
    rw [Finset.disjoint_left]; intro n h1 h2; exact ok.inputs t ht n (hu h2) h1
  have hhead : vars r.head ⊆ rvars r := by intro n hn; simp [rvars, hn]
  unfold ruleStep at e
  cases hp : pos i with
  | none =>
    have hslot : slotOf pos r i = none := by simp [slotOf, hp]
    rw [hslot]
    simp only [hp] at e
    -- the head that is used
    have key : ∃ h, st' = st.add c.fv ⟨h, r.body⟩ (.o i) ∧ h = if Useful c r.head then otherT c.ot r.head else r.head := by
      cases h1 : usefulOther c noHeap r.head with
      | none => simp [h1] at e
      | some b =>
        have c1 := useful_spec h1
        cases b with
        | true =>
          simp only [h1, Option.map_eq_some_iff] at e
          obtain ⟨o, h2, rfl⟩ := e
          have := other_spec (hdI _ hhead) h2
          rw [if_neg ok.notExo] at this
          exact ⟨o, rfl, this⟩
        | false =>
          simp only [h1, Option.some.injEq] at e
          refine ⟨r.head, e.symm, ?_⟩
          rw [if_neg fun h => by simpa using c1.2 h]
    obtain ⟨h, rfl, rfl⟩ := key
    obtain ⟨new, a1, a2, _, a4⟩ := add_Val hfv st ⟨if Useful c r.head then otherT c.ot r.head else r.head, r.body⟩ (.o i)
    refine ⟨new, a1, a2, by simp, fun K _ φ t V => ?_⟩
    obtain ⟨b1, b2, b3⟩ := wrap_spec hne ok.named.head ok.notSl ok.notOt r.body (Useful c r.head) φ t V
    refine ⟨fun y x => ?_, fun y => ?_, fun y hy => ?_⟩
    · rw [a4, kw_o, b1]
      unfold ssval sval
      split <;> simp
    · rw [a4, kw_o, b2]; rfl
    · rw [a4, kw_o, b3 y hy]; rfl
  | some j =>
    simp only [hp] at e
    cases hbj : r.body[j]? with
    | none => simp [hbj] at e
    | some l =>
      cases l with
      | val w => simp [hbj] at e
      | sub q =>
        simp only [hbj] at e
        have hslot : slotOf pos r i = some (r.body.take j, q, r.body.drop (j + 1)) := by simp [slotOf, hp, hbj]
        have hsplit := Unfold.split_body hbj
        have hq : vars q ⊆ rvars r := by
          intro n hn
          exact litVars_sub_rvars (List.mem_of_getElem? hbj) (by simpa [litVars] using hn)
        have hXq : Disjoint (vars c.X) (vars q) := by
          rw [Finset.disjoint_left]; intro n h1 h2; exact ok.X n (hq h2) h1
        rw [hslot]
        set L := r.body.take j with hL
        set R := r.body.drop (j + 1) with hR
        have hbq : isBuiltin c.sig q = false := by
          cases h : isBuiltin c.sig q with
          | false => rfl
          | true => simp [h] at e
        simp only [hbq, Bool.false_eq_true, if_false] at e
        cases hu : unifiesF c.f c.X q noHeap with
        | none => simp [hu] at e
        | some b =>
          have cu : b = true ↔ ∃ z, Inst c.X z ∧ Inst q z := by
            rw [unifies_iff hu]
            exact ⟨fun ⟨θ, h⟩ => meet_of_unify h, fun ⟨z, h1, h2⟩ => unify_of_meet hXq h1 h2⟩
          obtain ⟨n1, a1, a2, _, a4⟩ := add_Val hfv st (ssRule c Y r.head L q R) (.ss i)
          cases b with
          | true =>
            simp only [hu] at e
            have hm : ∃ z, Inst c.X z ∧ Inst q z := cu.1 rfl
            cases hc : Subst.coversF c.f c.X q with
            | none => simp [hc] at e
            | some b2 =>
              cases b2 with
              | false => simp [hc] at e
              | true =>
                simp only [hc, Option.some.injEq] at e
                subst e
                have hcov : InstanceOf q c.X := ((Subst.C06_covers hXq).2 _ _ hc).1 rfl
                refine ⟨n1, a1, a2, ?_, fun K _ φ t V => ⟨fun y x => ?_, fun y => ?_, fun y hy => ?_⟩⟩
                · intro L' q' R' h
                  simp only [Option.some.injEq, Prod.mk.injEq] at h
                  obtain ⟨rfl, rfl, rfl⟩ := h
                  exact ⟨hsplit, hbq, fun _ z hz => inst_of_instanceOf hcov hz⟩
                · rw [a4, kw_ss, ssRule_spec hsplit ok.X ok.Y]
                · rw [a4, kw_ss, ssRule_zero _ _ (by rw [hfn_oitem]; simpa using hne.symm), mul_zero]
                  simp only [gval, if_pos hm, ite_self, mul_zero]
                · rw [a4, kw_ss, ssRule_zero _ _ (fun h => hy (.inl h)), mul_zero]
                  simp only [gval, if_pos hm, ite_self, mul_zero]
          | false =>
            simp only [hu] at e
            have hm : ¬ ∃ z, Inst c.X z ∧ Inst q z := fun h => by simpa using cu.2 h
            cases h3 : other c noHeap r.head with
            | none => simp [h3] at e
            | some h =>
              cases h4 : other c noHeap q with
              | none => simp [h3, h4] at e
              | some o =>
                simp only [h3, h4, Option.some.injEq] at e
                subst e
                have e3 := other_spec (hdI _ hhead) h3
                rw [if_neg ok.notExo] at e3
                have hqu : Useful c q := ⟨q, ok.used _ _ _ hslot, Tm.var, rfl⟩
                have e4 := other_spec (hdI _ hq) h4
                rw [if_pos hqu] at e4
                obtain ⟨n2, b1, b2, _, b4⟩ := add_Val hfv (st.add c.fv (ssRule c Y r.head L q R) (.ss i)) ⟨h, L ++ .sub o :: R⟩ (.oo i)
                have hg : ∀ {K : Type} [CSemi K] (φ : W → K) V y, contrib (mapRule φ ⟨r.head, L ++ .sub o :: R⟩) V y =
                    gval φ c.ot c.X (Exo c) V r (some (L, q, R)) y := by
                  intro K _ φ V y
                  simp only [gval, if_neg hm]
                  rw [map_slot, e4]
                  by_cases hx : Exo c q
                  · simp only [if_pos hx]
                    rw [← Unfold.contribAt_self]
                  · simp only [if_neg hx]
                    rw [contrib_at_other]
                refine ⟨n1 ++ n2, by rw [b1, a1, List.append_assoc], le_trans a2 b2, ?_, fun K _ φ t V => ?_⟩
                · intro L' q' R' h
                  simp only [Option.some.injEq, Prod.mk.injEq] at h
                  obtain ⟨rfl, rfl, rfl⟩ := h
                  exact ⟨hsplit, hbq, fun h => absurd h hm⟩
                · obtain ⟨w1, w2, w3⟩ := wrap_spec hne ok.named.head ok.notSl ok.notOt (L ++ .sub o :: R) (Useful c r.head) φ t V
                  rw [e3] at b4
                  refine ⟨fun y x => ?_, fun y => ?_, fun y hy => ?_⟩
                  · rw [Val_append, a4, b4, kw_ss, kw_oo, w1, add_zero, ssRule_spec hsplit ok.X ok.Y]
                  · rw [Val_append, a4, b4, kw_ss, kw_oo, w2, ssRule_zero _ _ (by rw [hfn_oitem]; simpa using hne.symm), mul_zero, zero_add, hg]
                  · rw [Val_append, a4, b4, kw_ss, kw_oo, w3 y hy, ssRule_zero _ _ (fun h => hy (.inl h)), mul_zero, zero_add, hg]

/-! ### The loops over the nodes -/

/-- what the loops over the nodes need to know -/
structure Env (c : Cfg) (k0 : Nat) : Prop where
  fv : Function.Injective c.fv
  inputs : ∀ i ∈ c.inputs, OldT c.fv k0 i
  inputsX : ∀ i ∈ c.inputs, Disjoint (vars i) (vars c.X)
  X : c.X ∈ c.useful
  useful : ∀ u ∈ c.useful, OldT c.fv k0 u

theorem unify3_of_meet {i s t : Tm} (h1 : Disjoint (vars i) (vars s)) (h2 : Disjoint (vars i) (vars t)) (h3 : Disjoint (vars s) (vars t)) {x : GTm}
    (hi : Inst i x) (hs : Inst s x) (ht : Inst t x) : ∃ θ, s.sub θ = t.sub θ ∧ i.sub θ = t.sub θ := by
  obtain ⟨θ1, rfl⟩ := hi
  obtain ⟨θ2, e2⟩ := hs
  obtain ⟨θ3, e3⟩ := ht
  let τ : Nat → Tm := fun n => if n ∈ vars i then (θ1 n).1 else if n ∈ vars s then (θ2 n).1 else (θ3 n).1
  have a1 : i.sub τ = (gsub θ1 i).1 := sub_congr fun n hn => by simp [τ, hn]
  have a2 : s.sub τ = (gsub θ2 s).1 := sub_congr fun n hn => by
    have : n ∉ vars i := fun h => (Finset.disjoint_left.1 h1 h) hn
    simp [τ, hn, this]
  have a3 : t.sub τ = (gsub θ3 t).1 := sub_congr fun n hn => by
    have h : n ∉ vars i := fun h => (Finset.disjoint_left.1 h2 h) hn
    have h' : n ∉ vars s := fun h => (Finset.disjoint_left.1 h3 h) hn
    simp [τ, h, h']
  exact ⟨τ, by rw [a2, a3, e2, e3], by rw [a1, a3, e3]⟩

theorem meet3_of_unify {i s t : Tm} {θ : Nat → Tm} (h : s.sub θ = t.sub θ) (h' : i.sub θ = t.sub θ) : ∃ x, Inst i x ∧ Inst s x ∧ Inst t x := by
  refine ⟨gsub (fun _ => g0) (t.sub θ), ?_, ?_, ?_⟩
  · rw [← h']; exact ⟨_, (Unfold.gsub_sub θ _ i).symm⟩
  · rw [← h]; exact ⟨_, (Unfold.gsub_sub θ _ s).symm⟩
  · exact ⟨_, (Unfold.gsub_sub θ _ t).symm⟩

/-- a fresh copy -/
theorem fresh_inst {fv : Nat → Nat} (hfv : Function.Injective fv) (k : Nat) (s : Tm) (x : GTm) : Inst (freshV fv k s).1 x ↔ Inst s x :=
  inst_variant (freshV_spec hfv k s).1 x

theorem fresh_sig {fv : Nat → Nat} (hfv : Function.Injective fv) (k : Nat) {s : Tm} (h : Named s) : sigOf (freshV fv k s).1 = sigOf s := by
  obtain ⟨σ, e⟩ := (freshV_spec hfv k s).1.instanceOf
  rw [← e]; exact sigOf_sub h σ

theorem fresh_builtin {sig : Sigs} {fv : Nat → Nat} (hfv : Function.Injective fv) (k : Nat) {s : Tm} (h : Named s) :
    isBuiltin sig (freshV fv k s).1 = isBuiltin sig s := sigOf_builtin h (fresh_sig hfv k h)

theorem derefR_eq {h : Heap} (hg : Good h) {f : Nat} {r r' : WRule W} (e : derefR h f r = some r') : r' = subRule (res h) r := by
  obtain ⟨N, hN⟩ := Unfold.derefR_evt hg r
  have h1 := Unfold.derefR_mono (le_max_left f N) e
  rw [hN _ (le_max_right f N)] at h1
  simpa using h1.symm

/-- `_other` inside the loop over the unifiers of `X` and `x` -/
theorem other_heap {c : Cfg} {x o : Tm} {bs : List (Nat × Tm)} (hs : Spec noHeap c.X x (some bs)) (hX : c.X ∈ c.useful)
    (h1 : ∀ i ∈ c.inputs, Disjoint (vars i) (vars c.X)) (h2 : ∀ i ∈ c.inputs, Disjoint (vars i) (vars x)) (h3 : Disjoint (vars c.X) (vars x))
    (e : other c (bindAll noHeap bs) x = some o) : o = if ExoH c x then x else otherT c.ot x := by
  cases hs with
  | ok _ hg hτ hnd hbs hvs =>
  have hex : ∀ b, exo c (bindAll noHeap bs) x = some b → (b = true ↔ ExoH c x) := by
    intro b e
    unfold exo at e
    unfold ExoH
    cases hb : isBuiltin c.sig x with
    | true => simp [hb] at e; simp [← e]
    | false =>
      simp only [hb, Bool.false_eq_true, if_false] at e
      rw [isInput_heap hg e]
      simp only [Bool.false_eq_true, false_or]
      constructor
      · rintro ⟨i, hi, τ, hr, h⟩; exact ⟨i, hi, meet3_of_unify ((hτ τ).1 hr).2 h⟩
      · rintro ⟨i, hi, z, a, b, c⟩
        obtain ⟨τ, t1, t2⟩ := unify3_of_meet (h1 i hi) (h2 i hi) h3 a b c
        exact ⟨i, hi, τ, (hτ τ).2 ⟨respects_noHeap τ, t1⟩, t2⟩
  unfold other at e
  cases e1 : exo c (bindAll noHeap bs) x with
  | none => simp [e1] at e
  | some b =>
    have c1 := hex b e1
    cases b with
    | true => simp [e1] at e; rw [if_pos (c1.1 rfl), e]
    | false =>
      have : ¬ ExoH c x := fun h => by simpa using c1.2 h
      rw [if_neg this]
      simp only [e1] at e
      cases e2 : usefulOther c (bindAll noHeap bs) x with
      | none => simp [e2] at e
      | some b =>
        unfold usefulOther at e2
        have c2 := anyUnifies_heap hg e2
        have : b = true := c2.2 ⟨c.X, hX, res (bindAll noHeap bs), hg.respects_res, ((hτ _).1 hg.respects_res).2.symm⟩
        subst this
        have e2' : usefulOther c (bindAll noHeap bs) x = some true := e2
        simp [e2'] at e
        exact e.symm

theorem exoH_fresh {c : Cfg} (hfv : Function.Injective c.fv) (k : Nat) {s : Tm} (h : Named s) : ExoH c (freshV c.fv k s).1 ↔ ExoH c s := by
  unfold ExoH
  simp only [fresh_inst hfv, fresh_builtin hfv k h]

theorem exo_fresh {c : Cfg} (hfv : Function.Injective c.fv) (k : Nat) {s : Tm} (h : Named s) : Exo c (freshV c.fv k s).1 ↔ Exo c s := by
  unfold Exo
  simp only [fresh_inst hfv, fresh_builtin hfv k h]

theorem useful_fresh {c : Cfg} {k0 : Nat} (E : Env c k0) {k : Nat} (hk : k0 ≤ k) (s : Tm) : Useful c (freshV c.fv k s).1 ↔ UsefulN c s := by
  unfold Useful UsefulN
  constructor
  · rintro ⟨u, hu, θ, h⟩
    obtain ⟨x, h1, h2⟩ := meet_of_unify h
    exact ⟨u, hu, x, (fresh_inst E.fv k s x).1 h1, h2⟩
  · rintro ⟨u, hu, x, h1, h2⟩
    exact ⟨u, hu, unify_of_meet (old_disjoint E.fv ((E.useful u hu).mono hk) s).symm ((fresh_inst E.fv k s x).2 h1) h2⟩

/-- the contribution of the rules `rso` for one pair of nodes -/
noncomputable def rval (c : Cfg) (V : GTm → K) (s s' : Tm) (y : GTm) : K :=
  if Inst s y then isum fun x => if Inst c.X x ∧ Inst s' x then (if ExoH c s' then V x else V (oitem c.ot x)) * V (sitem c.sl y x) else 0 else 0

theorem rsoLoop_spec {c : Cfg} {k0 : Nat} (E : Env c k0) {y s : Tm} (hys : ∀ z, Inst y z ↔ Inst s z) : ∀ {ss : List Tm} {st st' : St W}, (∀ s ∈ ss, Named s) → k0 ≤ st.k →
    OldT c.fv st.k y → Disjoint (vars c.X) (vars y) → rsoLoop c y ss st = some st' →
    ∃ new, st'.out = st.out ++ new ∧ st.k ≤ st'.k ∧ ∀ (K : Type) [CSemi K] (φ : W → K) t V z,
      Val φ c.ot t new V z = (ss.map fun s' => t * rval c V s s' z).sum
  | [], st, st', _, _, _, _, e => by
    simp only [rsoLoop, Option.some.injEq] at e
    subst e
    exact ⟨[], by simp, le_refl _, fun K _ φ t V z => rfl⟩
  | s' :: ss, st, st', hn, hk, hy, hXy, e => by
    rw [rsoLoop] at e
    set x := freshV c.fv st.k s' with hx
    have hxk : st.k ≤ x.2 := (freshV_spec E.fv st.k s').2.1
    have hXx : Disjoint (vars c.X) (vars x.1) := old_disjoint E.fv ((E.useful _ E.X).mono hk) s'
    have hyx : Disjoint (vars y) (vars x.1) := old_disjoint E.fv hy s'
    obtain ⟨r, hs, hrun⟩ := unify_run good_noHeap c.X x.1
    cases hu : unifyF c.f c.X x.1 (rsoBody c y x.1) noHeap { st with k := x.2 } with
    | none => simp [hu] at e
    | some res =>
      have hr := hrun _ _ _ _ hu
      -- what one node adds
      have key : ∃ new, res.2.1.out = st.out ++ new ∧ st.k ≤ res.2.1.k ∧ ∀ (K : Type) [CSemi K] (φ : W → K) t V z,
          Val φ c.ot t new V z = t * rval c V s s' z := by
        cases r with
        | none =>
          simp only [run, Option.some.injEq] at hr
          rw [← hr]
          refine ⟨[], by simp, hxk, fun K _ φ t V z => ?_⟩
          rw [Val_nil]
          have : rval c V s s' z = 0 := by
            unfold rval
            split
            · refine (isum_congr fun a => if_neg ?_).trans isum_zero
              rintro ⟨h1, h2⟩
              exact no_meet hXx hs a ⟨h1, (fresh_inst E.fv st.k s' a).2 h2⟩
            · rfl
          rw [this, mul_zero]
        | some bs =>
          simp only [run] at hr
          cases hb : rsoBody c y x.1 (bindAll noHeap bs) { st with k := x.2 } with
          | none => simp [hb] at hr
          | some p =>
            simp only [hb, Option.some.injEq] at hr
            have hst : res.2.1 = p.2.1 := by rw [← hr]
            rw [hst]
            unfold rsoBody at hb
            cases h1 : other c (bindAll noHeap bs) x.1 with
            | none => simp [h1] at hb
            | some o =>
              simp only [h1] at hb
              cases h2 : derefR (bindAll noHeap bs) c.f (⟨y, [.sub o, .sub (slashT c.sl y x.1)]⟩ : WRule W) with
              | none => simp [h2] at hb
              | some rr =>
                simp only [h2, Option.some.injEq] at hb
                have hg : Good (bindAll noHeap bs) := by cases hs with | ok _ hg => exact hg
                have hrr := derefR_eq hg h2
                have ho := other_heap hs E.X E.inputsX (fun i hi => old_disjoint E.fv ((E.inputs i hi).mono hk) s') hXx h1
                obtain ⟨new, a1, a2, _, a4⟩ := add_Val E.fv ({ st with k := x.2 } : St W) rr .rso
                refine ⟨new, by rw [← hb]; exact a1, by rw [← hb]; exact le_trans hxk a2, fun K _ φ t V z => ?_⟩
                rw [a4, hrr, mapRule_sub]
                show t * _ = _
                congr 1
                have hvo : vars o = vars x.1 := by
                  rw [ho]; split
                  · rfl
                  · exact vars_otherT _ _
                have := contrib_rso (K := K) (sl := c.sl) (X := c.X) (x' := x.1) (y := y) (o := o) (V := V)
                  (O := fun a => if ExoH c s' then V a else V (oitem c.ot a)) hs hvo hXx
                  (by rw [Finset.disjoint_union_left]; exact ⟨hXy, hyx.symm⟩)
                  (fun θ => by
                    rw [ho]
                    by_cases hE : ExoH c s'
                    · rw [if_pos ((exoH_fresh E.fv st.k (hn s' (by simp))).2 hE)]; simp [hE, hx]
                    · rw [if_neg (fun h => hE ((exoH_fresh E.fv st.k (hn s' (by simp))).1 h)), gsub_otherT]; simp [hE, hx]) z
                refine Eq.trans this ?_
                unfold rval
                simp only [hys, hx, fresh_inst E.fv]
      obtain ⟨n1, k1, k2, k3⟩ := key
      obtain ⟨h', stm, sg⟩ := res
      cases sg with
      | brk => simp [hu] at e
      | exc => simp [hu] at e
      | done =>
        simp only [hu] at e
        obtain ⟨n2, b1, b2, b3⟩ := rsoLoop_spec E hys (fun s hs => hn s (by simp [hs])) (le_trans hk k2) (hy.mono k2) hXy e
        refine ⟨n1 ++ n2, by rw [b1, k1, List.append_assoc], le_trans k2 b2, fun K _ φ t V z => ?_⟩
        rw [Val_append, k3, b3]
        simp

/-- the meaning of `$not_matches` -/
def NotMatches (c : Cfg) (V : GTm → K) (z : GTm) : Prop := V (nmitem c.lam z) = if Inst c.X z then 0 else 1

theorem roStep_spec {c : Cfg} {k0 : Nat} (E : Env c k0) {s : Tm} (hs : Named s) (hex : ¬ Exo c s) {k : Nat} (hk : k0 ≤ k) {st st' : St W}
    (hst : st.k = (freshV c.fv k s).2) (e : roStep c (freshV c.fv k s).1 st = some st') :
    ∃ new, st'.out = st.out ++ new ∧ st.k ≤ st'.k ∧ ∀ (K : Type) [CSemi K] (φ : W → K) t V z, (Inst s z → NotMatches c V z) →
      Val φ c.ot t new V z = if UsefulN c s ∧ Inst s z ∧ ¬ Inst c.X z then t ^ 2 * V (oitem c.ot z) else 0 := by
  set y := freshV c.fv k s with hy
  unfold roStep at e
  cases h1 : usefulOther c noHeap y.1 with
  | none => simp [h1] at e
  | some b =>
    have c1 := (useful_spec h1).trans (useful_fresh E hk s)
    cases b with
    | false =>
      simp only [h1, Option.some.injEq] at e
      subst e
      have : ¬ UsefulN c s := fun h => by simpa using c1.2 h
      exact ⟨[], by simp, le_refl _, fun K _ φ t V z _ => by simp [Val_nil, this]⟩
    | true =>
      have hU : UsefulN c s := c1.1 rfl
      simp only [h1] at e
      set x := freshV c.fv st.k c.X with hx
      have hxk : st.k ≤ x.2 := (freshV_spec E.fv st.k c.X).2.1
      have hdy : ∀ i ∈ c.inputs, Disjoint (vars i) (vars y.1) := fun i hi => old_disjoint E.fv ((E.inputs i hi).mono hk) s
      have hyx : Disjoint (vars y.1) (vars x.1) := by
        have := old_fresh E.fv k s
        rw [← hy, ← hst] at this
        exact old_disjoint E.fv this c.X
      have hoth : ∀ o, other c noHeap y.1 = some o → o = otherT c.ot y.1 := fun o ho => by
        have := other_spec hdy ho
        rwa [if_neg (fun h => hex ((exo_fresh E.fv k hs).1 h)), if_pos ((useful_fresh E hk s).2 hU)] at this
      -- one rule
      have one : ∀ (b : List (Lit W)) (st1 : St W), st1.k = x.2 → st1.out = st.out →
          ((some st1).bind fun st => (other c noHeap y.1).map fun o => st.add c.fv ⟨y.1, .sub o :: b⟩ .ro) = some st' →
          bodyVars b ⊆ vars y.1 →
          ∃ new, st'.out = st.out ++ new ∧ st.k ≤ st'.k ∧ ∀ (K : Type) [CSemi K] (φ : W → K) t V (O : GTm → K), (∀ θ, bv V θ (b.map (mapLit φ)) = O (gsub θ y.1)) → ∀ z,
            Val φ c.ot t new V z = t ^ 2 * if Inst s z then V (oitem c.ot z) * O z else 0 := by
        intro b st1 hk1 ho1 e hb
        simp only [Option.bind_some, Option.map_eq_some_iff] at e
        obtain ⟨o, h2, rfl⟩ := e
        have := hoth o h2
        subst this
        obtain ⟨new, a1, a2, _, a4⟩ := add_Val E.fv st1 ⟨y.1, .sub (otherT c.ot y.1) :: b⟩ .ro
        refine ⟨new, by rw [a1, ho1], by omega, fun K _ φ t V O hO z => ?_⟩
        rw [a4]
        show t ^ 2 * _ = _
        congr 1
        have := contrib_copy (K := K) (y := y.1) (b := .sub (otherT c.ot y.1) :: b.map (mapLit φ)) (V := V) (O := fun z => V (oitem c.ot z) * O z)
          (by
            rw [bodyVars_cons, bodyVars_map]
            simp only [litVars, vars_otherT]
            exact Finset.union_subset (Finset.Subset.refl _) hb)
          (fun θ => by rw [bv_cons, hO]; simp only [lv, gsub_otherT]) z
        refine Eq.trans this ?_
        simp only [hy, fresh_inst E.fv]
      cases h2 : notMatches (W := W) c x.1 y.1 with
      | none => simp [h2] at e
      | some cs =>
        simp only [h2] at e
        unfold notMatches at h2
        split at h2
        · rename_i n hxv
          simp only [Option.some.injEq] at h2
          subst h2
          simp only [List.foldl_nil, Option.some.injEq] at e
          subst e
          refine ⟨[], by simp, hxk, fun K _ φ t V z _ => ?_⟩
          have : Inst c.X z := (fresh_inst E.fv st.k c.X z).1 (by rw [← hx, hxv]; exact inst_var n z)
          simp [Val_nil, this]
        · cases h3 : unifiesF c.f x.1 y.1 noHeap with
          | none => simp [h3] at h2
          | some b =>
            cases b with
            | false =>
              simp only [h3, Option.some.injEq] at h2
              subst h2
              simp only [List.foldl_cons, List.foldl_nil] at e
              obtain ⟨new, a1, a2, a3⟩ := one [] { st with k := x.2 } rfl rfl e (by simp [bodyVars])
              refine ⟨new, a1, a2, fun K _ φ t V z _ => ?_⟩
              rw [a3 K φ t V (fun _ => 1) (fun θ => by simp [bv_nil]) z]
              by_cases hz : Inst s z
              · have : ¬ Inst c.X z := fun h => by
                  have := (unifies_iff h3).2 (unify_of_meet hyx.symm ((fresh_inst E.fv _ _ z).2 h) ((fresh_inst E.fv k s z).2 hz))
                  simp at this
                simp [hz, this, hU]
              · simp [hz]
            | true =>
              simp only [h3, Option.some.injEq] at h2
              subst h2
              simp only [List.foldl_cons, List.foldl_nil] at e
              obtain ⟨new, a1, a2, a3⟩ := one [.sub (nmT c.lam y.1)] { st with k := x.2 } rfl rfl e (by simp [bodyVars, litVars, vars_nmT])
              refine ⟨new, a1, a2, fun K _ φ t V z hnm => ?_⟩
              rw [a3 K φ t V (fun z => V (nmitem c.lam z)) (fun θ => by
                simp only [List.map_cons, List.map_nil, mapLit, bv_cons, bv_nil, lv, gsub_nmT, mul_one]) z]
              by_cases hz : Inst s z
              · rw [if_pos hz, hnm hz]
                by_cases hX : Inst c.X z <;> simp [hz, hX, hU]
              · simp [hz]

/-- the contribution of the rules made for the node `s` -/
noncomputable def nval (c : Cfg) (t : K) (nodes : List Tm) (V : GTm → K) (s : Tm) (y : GTm) : K :=
  if Exo c s then 0 else (if UsefulN c s ∧ Inst s y ∧ ¬ Inst c.X y then t ^ 2 * V (oitem c.ot y) else 0) + (nodes.map fun s' => t * rval c V s s' y).sum

theorem nodeLoop_spec {c : Cfg} {k0 : Nat} (E : Env c k0) {nodes : List Tm} (hn : ∀ s ∈ nodes, Named s) (hd : ∀ s ∈ nodes, ∀ i ∈ c.inputs, Disjoint (vars i) (vars s)) :
    ∀ {ss : List Tm} {st st' : St W}, (∀ s ∈ ss, s ∈ nodes) → k0 ≤ st.k → nodeLoop c nodes ss st = some st' →
    ∃ new, st'.out = st.out ++ new ∧ ∀ (K : Type) [CSemi K] (φ : W → K) t V z, ((∃ s ∈ nodes, ¬ Exo c s ∧ Inst s z) → NotMatches c V z) →
      Val φ c.ot t new V z = (ss.map fun s => nval c t nodes V s z).sum
  | [], st, st', _, _, e => by
    simp only [nodeLoop, Option.some.injEq] at e
    subst e
    exact ⟨[], by simp, fun K _ φ t V z _ => rfl⟩
  | s :: ss, st, st', hsub, hk, e => by
    rw [nodeLoop] at e
    have hs : s ∈ nodes := hsub s (by simp)
    cases h1 : nodeStep c nodes s st with
    | none => simp [h1] at e
    | some st1 =>
      simp only [h1] at e
      have key : ∃ new, st1.out = st.out ++ new ∧ st.k ≤ st1.k ∧ ∀ (K : Type) [CSemi K] (φ : W → K) t V z, ((∃ s ∈ nodes, ¬ Exo c s ∧ Inst s z) → NotMatches c V z) →
          Val φ c.ot t new V z = nval c t nodes V s z := by
        unfold nodeStep at h1
        cases h2 : exo c noHeap s with
        | none => simp [h2] at h1
        | some b =>
          have c2 := exo_spec (hd s hs) h2
          cases b with
          | true =>
            simp only [h2, Option.some.injEq] at h1
            subst h1
            exact ⟨[], by simp, le_refl _, fun K _ φ t V z _ => by rw [nval, if_pos (c2.1 rfl), Val_nil]⟩
          | false =>
            have hex : ¬ Exo c s := fun h => by simpa using c2.2 h
            simp only [h2] at h1
            have hyk := (freshV_spec E.fv st.k s).2.1
            cases h3 : roStep c (freshV c.fv st.k s).1 ({ st with k := (freshV c.fv st.k s).2 } : St W) with
            | none => simp [h3] at h1
            | some st2 =>
              simp only [h3] at h1
              obtain ⟨n1, a1, a2, a3⟩ := roStep_spec E (hn s hs) hex hk rfl h3
              have a2' : (freshV c.fv st.k s).2 ≤ st2.k := a2
              obtain ⟨n2, b1, b2, b3⟩ := rsoLoop_spec E (fresh_inst E.fv st.k s) hn (by omega) ((old_fresh E.fv st.k s).mono a2)
                (old_disjoint E.fv ((E.useful _ E.X).mono hk) s) h1
              refine ⟨n1 ++ n2, by rw [b1, a1, List.append_assoc], by omega, fun K _ φ t V z hnm => ?_⟩
              rw [Val_append, a3 K φ t V z fun hz => hnm ⟨s, hs, hex, hz⟩, b3, nval, if_neg hex]
      obtain ⟨n1, a1, a2, a3⟩ := key
      obtain ⟨n2, b1, b2⟩ := nodeLoop_spec E hn hd (fun s hs => hsub s (by simp [hs])) (le_trans hk a2) e
      refine ⟨n1 ++ n2, by rw [b1, a1, List.append_assoc], fun K _ φ t V z hnm => ?_⟩
      rw [Val_append, a3 K φ t V z hnm, b2 K φ t V z hnm]
      simp

/-! ### The loop over the rules -/

/-- rules with their slots, numbered from `i` -/
def slots (pos : Nat → Option Nat) : List (WRule W) → Nat → List (WRule W × Slot W)
  | [], _ => []
  | r :: rs, i => (r, slotOf pos r i) :: slots pos rs (i + 1)

theorem slots_fst (pos : Nat → Option Nat) : ∀ (rs : List (WRule W)) (i : Nat), (slots pos rs i).map Prod.fst = rs
  | [], _ => rfl
  | r :: rs, i => by simp [slots, slots_fst pos rs]

theorem slots_useful {pos : Nat → Option Nat} : ∀ {rs : List (WRule W)} {i : Nat} {q : Tm},
    q ∈ usefulList pos rs i ↔ ∃ r ∈ slots pos rs i, ∃ L R, r.2 = some (L, q, R)
  | [], i, q => by simp [usefulList, slots]
  | r :: rs, i, q => by
    rw [usefulList, slots, List.mem_append, slots_useful (rs := rs)]
    simp only [List.mem_cons, exists_eq_or_imp]
    refine or_congr ?_ Iff.rfl
    unfold slotOf
    cases pos i with
    | none => simp
    | some j =>
      simp only
      cases r.body[j]? with
      | none => simp
      | some l => cases l with
        | val w => simp
        | sub u => simp [eq_comm]

theorem ruleLoop_spec {c : Cfg} (hfv : Function.Injective c.fv) (hne : c.sl ≠ c.ot) {Y : Nat} {pos : Nat → Option Nat} :
    ∀ {rs : List (WRule W)} {i : Nat} {st st' : St W}, (∀ r ∈ rs, NamedRule r ∧ hfn r.head ≠ some c.sl ∧ hfn r.head ≠ some c.ot ∧ ¬ Exo c r.head ∧
      (∀ t ∈ c.inputs, ∀ n ∈ rvars r, n ∉ vars t) ∧ (∀ n ∈ rvars r, n ∉ vars c.X) ∧ Y ∉ rvars r) → (∀ q ∈ usefulList pos rs i, q ∈ c.useful) →
    ruleLoop c Y pos rs i st = some st' →
    ∃ new, st'.out = st.out ++ new ∧ st.k ≤ st'.k ∧
      (∀ r ∈ slots pos rs i, ∀ L q R, r.2 = some (L, q, R) → r.1.body = L ++ .sub q :: R ∧ isBuiltin c.sig q = false ∧
        ((∃ z, Inst c.X z ∧ Inst q z) → ∀ z, Inst q z → Inst c.X z)) ∧
      ∀ (K : Type) [CSemi K] (φ : W → K) t V,
        (∀ y x, Val φ c.ot t new V (sitem c.sl y x) = t * ((slots pos rs i).map fun r => ssval φ c V r.1 r.2 y x).sum) ∧
        (∀ y, Val φ c.ot t new V (oitem c.ot y) = t * ((slots pos rs i).map fun r => if Useful c r.1.head then gval φ c.ot c.X (Exo c) V r.1 r.2 y else 0).sum) ∧
        ∀ y, ¬ NewItem c y → Val φ c.ot t new V y = t ^ 3 * ((slots pos rs i).map fun r => if Useful c r.1.head then 0 else gval φ c.ot c.X (Exo c) V r.1 r.2 y).sum
  | [], i, st, st', _, _, e => by
    simp only [ruleLoop, Option.some.injEq] at e
    subst e
    exact ⟨[], by simp, le_refl _, by simp [slots], fun K _ φ t V => by simp [Val_nil, slots]⟩
  | r :: rs, i, st, st', hr, hu, e => by
    rw [ruleLoop] at e
    cases h1 : ruleStep c Y pos st r i with
    | none => simp [h1] at e
    | some st1 =>
      simp only [h1] at e
      obtain ⟨o1, o2, o3, o4, o5, o6, o7⟩ := hr r (by simp)
      have ok : RuleOK c Y pos r i := ⟨o1, o2, o3, o4, o5, o6, o7, fun L q R h => hu q (by
        rw [slots_useful]
        exact ⟨(r, slotOf pos r i), by rw [slots]; simp, L, R, h⟩)⟩
      obtain ⟨n1, a1, a2, a3, a4⟩ := ruleStep_spec hfv hne ok h1
      obtain ⟨n2, b1, b2, b3, b4⟩ := ruleLoop_spec hfv hne (fun r h => hr r (by simp [h])) (fun q h => hu q (by rw [usefulList, List.mem_append]; exact .inr h)) e
      refine ⟨n1 ++ n2, by rw [b1, a1, List.append_assoc], le_trans a2 b2, ?_, fun K _ φ t V => ?_⟩
      · intro r' h
        rw [slots] at h
        rcases List.mem_cons.1 h with rfl | h
        · exact a3
        · exact b3 r' h
      · obtain ⟨c1, c2, c3⟩ := a4 K φ t V
        obtain ⟨d1, d2, d3⟩ := b4 K φ t V
        refine ⟨fun y x => ?_, fun y => ?_, fun y hy => ?_⟩
        · rw [Val_append, c1, d1, slots]; simp [mul_add]
        · rw [Val_append, c2, d2, slots]; simp [mul_add]
        · rw [Val_append, c3 y hy, d3 y hy, slots]; simp [mul_add]

end Slash
end Verif
