/-
Property C83: mapping derivations through the slash transformation.
-/
import Verif.DSlash
import Verif.DSlashRun
import Verif.DFoldThm
import Verif.ReorderThm

set_option linter.unusedSectionVars false
set_option linter.unusedSimpArgs false

namespace Verif
open Tm Heap Sem
open Solver (noHeap good_noHeap)

namespace DSlash
open Slash (Kind Res St Inst Exo ExoH Useful UsefulN slashT otherT nmT sitem oitem usefulOther other Setup Eqs Facts inst_sig inst_hfn inst_builtin sigOf usefulList)
open Linearize (Sigs isBuiltin)
open DFold (treeTm ruleTm)
open Measure (litTm)
open Classical
variable {W : Type}

/-! ### Specification -/

/-- a body element of a ground rule and the child in its place; `B` says which builtin atoms may be leaves -/
inductive Fit (B : Tm → Prop) : Lit W → DUnfold.Tree W → Prop
  | val (k : W) : Fit B (.val k) (.const k)
  | bi (t : Tm) : B t → Fit B (.sub t) (.bi t)
  | node (n : Nat) (t : Tm) (ks : List (DUnfold.Tree W)) : Fit B (.sub t) (.node n t ks)

/-- ground derivations of a program -/
inductive Der (B : Tm → Prop) (rules : List (WRule W)) : DUnfold.Tree W → Prop
  | const (k : W) : Der B rules (.const k)
  | bi (t : Tm) : B t → Der B rules (.bi t)
  | node (n : Nat) (r : WRule W) (x : GTm) (b : List (Lit W)) (ks : List (DUnfold.Tree W)) : rules[n]? = some r → GI r x b →
      List.Forall₂ (Fit B) b ks → (∀ d ∈ ks, Der B rules d) → Der B rules (.node n x.1 ks)

/-- the item is an instance of the term -/
def Is (t x : Tm) : Prop := ∃ z : GTm, z.1 = x ∧ Inst t z

/-- the derivation has an instance of `X` at the top or further down along the positions -/
inductive Hit (X : Tm) (pos : Nat → Option Nat) : DUnfold.Tree W → Prop
  | here (n : Nat) (x : Tm) (ks : List (DUnfold.Tree W)) : Is X x → Hit X pos (.node n x ks)
  | down (n : Nat) (x : Tm) (ks : List (DUnfold.Tree W)) (j : Nat) (d : DUnfold.Tree W) : pos n = some j → ks[j]? = some d → Hit X pos d → Hit X pos (.node n x ks)

/-- the item is an instance of a term to be kept apart: `x` or a subgoal at a position -/
def Used (c : Slash.Cfg) (x : Tm) : Prop := ∃ u ∈ c.useful, Is u x

/-- the derivations that can be mapped.  An instance of `x` made by a rule with a position has one below it along the positions.  Where there is none at or below
an item that is kept apart, a node of the coarse graph has the item but no instance of `x`; an item not kept apart comes from a rule whose head is not kept apart either. -/
inductive OK (c : Slash.Cfg) (rules : List (WRule W)) (pos : Nat → Option Nat) (nodes : List Tm) : DUnfold.Tree W → Prop
  | const (k : W) : OK c rules pos nodes (.const k)
  | bi (t : Tm) : OK c rules pos nodes (.bi t)
  | node (n : Nat) (x : Tm) (ks : List (DUnfold.Tree W)) : (∀ d ∈ ks, OK c rules pos nodes d) →
      (Is c.X x → ∀ j d, pos n = some j → ks[j]? = some d → Hit c.X pos d) →
      (¬ Hit c.X pos (.node n x ks) → Used c x → ∃ s ∈ nodes, Is s x ∧ ¬ ∃ z, Inst c.X z ∧ Inst s z) →
      (¬ Hit c.X pos (.node n x ks) → ¬ Used c x → ∀ r, rules[n]? = some r → ¬ Useful c r.head) → OK c rules pos nodes (.node n x ks)

mutual
/-- product of `v` over the constants and of `a` over the rule numbers -/
def wt {M : Type} [CommMonoid M] (v : W → M) (a : Nat → M) : DUnfold.Tree W → M
  | .const k => v k
  | .bi _ => 1
  | .node n _ ks => a n * wtL v a ks
def wtL {M : Type} [CommMonoid M] (v : W → M) (a : Nat → M) : List (DUnfold.Tree W) → M
  | [] => 1
  | d :: ds => wt v a d * wtL v a ds
end

/-- the kind of rule `i` of the new program -/
def kd (res : Res W) (i : Nat) : Option Kind := (res.rules[i]?).map Prod.snd

/-- the number of the old rule from which rule `i` of the new program was made; the rules `base`, `ro` and `rso` count for nothing -/
def up {M : Type} [CommMonoid M] (res : Res W) (a : Nat → M) (i : Nat) : M := match kd res i with
  | some (.o n) => a n
  | some (.oo n) => a n
  | some (.ss n) => a n
  | _ => 1

/-- the item without the wrapper `$other` -/
def unw (ot : Const) : Tm → Tm
  | .app [.con c, t] => if c = ot then t else .app [.con c, t]
  | t => t

/-- the numerator of a slashed item -/
def numer : Tm → Tm
  | .app [_, y, _] => y
  | t => t

mutual
/-- back from the new derivations: `plug s d` puts `d` at the end of the spine `s` -/
def back (res : Res W) (pos : Nat → Option Nat) : DUnfold.Tree W → Option (DUnfold.Tree W)
  | .const k => some (.const k)
  | .bi t => some (.bi t)
  | .node i h ks => match kd res i with
    | some (.o n) => (backL res pos ks).map fun ks => .node n (unw res.c.ot h) ks
    | some (.oo n) => (backL res pos ks).map fun ks => .node n (unw res.c.ot h) ks
    | some .ro => back1 res pos ks
    | some .rso => back2 res pos ks
    | _ => none
def backL (res : Res W) (pos : Nat → Option Nat) : List (DUnfold.Tree W) → Option (List (DUnfold.Tree W))
  | [] => some []
  | d :: ds => match back res pos d, backL res pos ds with
    | some e, some es => some (e :: es)
    | _, _ => none
/-- the only child -/
def back1 (res : Res W) (pos : Nat → Option Nat) : List (DUnfold.Tree W) → Option (DUnfold.Tree W)
  | [] => none
  | d :: _ => back res pos d
/-- two children -/
def back2 (res : Res W) (pos : Nat → Option Nat) : List (DUnfold.Tree W) → Option (DUnfold.Tree W)
  | [] => none
  | d :: ds => (back res pos d).bind fun e => plug1 res pos ds e
def plug1 (res : Res W) (pos : Nat → Option Nat) : List (DUnfold.Tree W) → DUnfold.Tree W → Option (DUnfold.Tree W)
  | [], _ => none
  | s :: _, e => plug res pos s e
def plug (res : Res W) (pos : Nat → Option Nat) : DUnfold.Tree W → DUnfold.Tree W → Option (DUnfold.Tree W)
  | .const _, _ => none
  | .bi _, _ => none
  | .node i h ks, e => match kd res i with
    | some .base => some e
    | some (.ss n) => match pos n with
      | some j => (plugAt res pos j ks e).map fun ks => .node n (numer h) ks
      | none => none
    | _ => none
def plugAt (res : Res W) (pos : Nat → Option Nat) : Nat → List (DUnfold.Tree W) → DUnfold.Tree W → Option (List (DUnfold.Tree W))
  | _, [], _ => none
  | 0, s :: ds, e => match plug res pos s e, backL res pos ds with
    | some d, some ds => some (d :: ds)
    | _, _ => none
  | j + 1, d :: ds, e => match back res pos d, plugAt res pos j ds e with
    | some d, some ds => some (d :: ds)
    | _, _ => none
end

/-! ### Computations with fuel -/

/-- with enough fuel the result is `a`, and it is never anything else -/
def Evals {α : Type} (g : Nat → Option α) (a : α) : Prop := (Evt fun f => g f = some a) ∧ ∀ f, g f = none ∨ g f = some a

theorem evals_of {α : Type} {g : Nat → Option α} {a : α} (h1 : Evt fun f => g f ≠ none) (h2 : ∀ f b, g f = some b → b = a) : Evals g a := by
  have : ∀ f, g f = none ∨ g f = some a := fun f => by
    cases h : g f with
    | none => exact .inl rfl
    | some b => exact .inr (by rw [h2 f b h])
  exact ⟨h1.mono fun f hf => (this f).resolve_left hf, this⟩

theorem Evals.pure {α : Type} (a : α) : Evals (fun _ => some a) a := ⟨.of_all fun _ => rfl, fun _ => .inr rfl⟩

theorem Evals.bind {α β : Type} {g : Nat → Option α} {a : α} {k : Nat → Option β} {b : β} (h : Evals g a) (hk : Evals k b) {F : Nat → Option β}
    (h0 : ∀ f, g f = none → F f = none) (h1 : ∀ f, g f = some a → F f = k f) : Evals F b := by
  refine ⟨(h.1.and hk.1).mono fun f hf => by rw [h1 f hf.1, hf.2], fun f => ?_⟩
  rcases h.2 f with e | e
  · exact .inl (h0 f e)
  · rw [h1 f e]; exact hk.2 f

theorem Evals.fails {α β : Type} {g : Nat → Option α} {a : α} {k : Nat → Option β} (h : Evals g a) (hk : ∀ f, k f = none) {F : Nat → Option β}
    (h0 : ∀ f, g f = none → F f = none) (h1 : ∀ f, g f = some a → F f = k f) (f : Nat) : F f = none := by
  rcases h.2 f with e | e
  · exact h0 f e
  · rw [h1 f e, hk]

/-! ### Terms -/

theorem vars_ground (x : GTm) : vars x.1 = ∅ := x.2

theorem is_iff {t : Tm} {x : GTm} : Is t x.1 ↔ Inst t x := by
  constructor
  · rintro ⟨z, h, hi⟩; rwa [← Subtype.ext h]
  · intro h; exact ⟨x, rfl, h⟩

theorem inst_ground {x z : GTm} : Inst x.1 z ↔ z = x := by
  constructor
  · rintro ⟨θ, rfl⟩
    apply Subtype.ext
    show x.1.sub _ = x.1
    exact Unfold.sub_closed x.2 _
  · rintro rfl
    exact ⟨fun _ => g0, Subtype.ext (Unfold.sub_closed z.2 _)⟩

theorem unify_ground {x : GTm} {t : Tm} : (∃ θ, x.1.sub θ = t.sub θ) ↔ Inst t x := by
  constructor
  · rintro ⟨θ, h⟩
    obtain ⟨z, h1, h2⟩ := Slash.meet_of_unify h
    rw [inst_ground.1 h1] at h2; exact h2
  · intro h
    exact Slash.unify_of_meet (by rw [x.2]; simp) (inst_ground.2 rfl) h

theorem useful_ground {c : Slash.Cfg} {x : GTm} : Useful c x.1 ↔ Used c x.1 := by
  unfold Useful Used
  simp only [unify_ground, is_iff]

theorem fit_tm (code : W → Const) {B : Tm → Prop} {l : Lit W} {d : DUnfold.Tree W} (h : Fit B l d) : litTm code l = treeTm code d := by
  cases h <;> rfl

theorem fits_tm (code : W → Const) {B : Tm → Prop} {b : List (Lit W)} {ks : List (DUnfold.Tree W)} (h : List.Forall₂ (Fit B) b ks) : b.map (litTm code) = ks.map (treeTm code) := by
  induction h with
  | nil => rfl
  | cons h _ ih => rw [List.map_cons, List.map_cons, ih, fit_tm code h]

theorem litTm_glit (code : W → Const) (θ : Nat → GTm) (l : Lit W) : litTm code (glit θ l) = (litTm code l).sub fun n => (θ n).1 := by
  cases l with
  | val k => simp [litTm, glit]
  | sub t => rfl

/-- an instance of a rule, as terms -/
theorem gi_fits (code : W → Const) {r : WRule W} {x : GTm} {b : List (Lit W)} (h : GI r x b) : Reorder.Fits (ruleTm code r) x.1 (b.map (litTm code)) := by
  obtain ⟨θ, rfl, rfl⟩ := h
  refine ⟨fun n => (θ n).1, rfl, ?_⟩
  simp only [ruleTm, List.map_map]
  exact List.map_congr_left fun l _ => (litTm_glit code θ l).symm

theorem fits_gi (code : W → Const) {r : WRule W} {x : GTm} {ts : List Tm} (hg : ∀ t ∈ ts, vars t = ∅) (h : Reorder.Fits (ruleTm code r) x.1 ts) :
    ∃ b, GI r x b ∧ b.map (litTm code) = ts := by
  obtain ⟨τ, h1, h2⟩ := h
  have key : ∀ t : Tm, vars (t.sub τ) = ∅ → (gsub (fun n => gsub (fun _ => g0) (τ n)) t).1 = t.sub τ := fun t ht => by
    rw [← Unfold.gsub_sub]
    exact Unfold.sub_closed ht _
  refine ⟨_, ⟨fun n => gsub (fun _ => g0) (τ n), ?_, rfl⟩, ?_⟩
  · apply Subtype.ext
    rw [key]
    · exact h1
    · have : r.head.sub τ = x.1 := h1
      rw [this]; exact x.2
  · rw [← h2]
    simp only [ruleTm, List.map_map]
    refine List.map_congr_left fun l hl => ?_
    simp only [Function.comp]
    rw [litTm_glit]
    refine key (litTm code l) (hg _ ?_)
    rw [← h2]
    simp only [ruleTm, List.map_map]
    exact List.mem_map.2 ⟨l, hl, rfl⟩

theorem gr_der {B : Tm → Prop} (hB : ∀ t, B t → vars t = ∅) {rules : List (WRule W)} (code : W → Const) {d : DUnfold.Tree W} (h : Der B rules d) : vars (treeTm code d) = ∅ := by
  cases h with
  | const k => simp [treeTm]
  | bi t h => exact hB t h
  | node n r x b ks h1 h2 h3 h4 => exact x.2

theorem dis {R : Rule} {x : GTm} {ts : List Tm} (h : ∀ t ∈ ts, vars t = ∅) : Disjoint (vars R.tm) (vars (Rule.mk x.1 ts).tm) := by
  have : vars (Rule.mk x.1 ts).tm = ∅ := by
    rw [Finset.eq_empty_iff_forall_notMem]
    intro n hn
    simp only [Rule.tm, vars_app, varsL_cons, Finset.mem_union, mem_varsL] at hn
    rcases hn with hn | ⟨t, ht, hn⟩
    · rw [x.2] at hn; simp at hn
    · rw [h t ht] at hn; simp at hn
  rw [this]; simp

/-! ### The parts of the mapping -/

/-- the object with another amount of fuel -/
def Cfg.at (E : Cfg W) (f : Nat) : Cfg W := { E with f := f }

theorem anyUnifies_evt (x : Tm) : ∀ ts : List Tm, Evt fun f => Slash.anyUnifies f x noHeap ts ≠ none
  | [] => .of_all fun f => by simp [Slash.anyUnifies]
  | t :: ts => ((Linearize.unifies_evt x t).and (anyUnifies_evt x ts)).mono fun f ⟨⟨b, hb⟩, h⟩ => by
    rw [Slash.anyUnifies, hb]
    cases b <;> simp [h]

theorem isInput_evt (x : Tm) : ∀ ts : List Tm, Evt fun f => Unfold.isInput f x noHeap ts ≠ none
  | [] => .of_all fun f => by simp [Unfold.isInput]
  | t :: ts => ((Linearize.unifies_evt t x).and (isInput_evt x ts)).mono fun f ⟨⟨b, hb⟩, h⟩ => by
    rw [Unfold.isInput, hb]
    cases b <;> simp [h]

theorem unif_evals {X : Tm} (x : GTm) : Evals (fun f => unifiesF f x.1 X noHeap) (decide (Inst X x)) := by
  refine evals_of ((Linearize.unifies_evt x.1 X).mono fun f ⟨b, h⟩ => by rw [h]; simp) fun f b h => ?_
  have := Slash.unifies_iff h
  rw [unify_ground] at this
  cases b <;> simp_all

theorem useful_evals (E : Cfg W) (x : GTm) : Evals (fun f => usefulOther (E.at f).c noHeap x.1) (decide (Used E.res.c x.1)) := by
  refine evals_of (anyUnifies_evt x.1 E.res.c.useful) fun f b h => ?_
  have := Slash.useful_spec h
  rw [useful_ground] at this
  have h2 : Used (E.at f).c x.1 ↔ Used E.res.c x.1 := Iff.rfl
  rw [h2] at this
  cases b <;> simp_all

theorem other_evals (E : Cfg W) {x : GTm} (he : ¬ Exo E.res.c x.1) (hu : Used E.res.c x.1) : Evals (fun f => other (E.at f).c noHeap x.1) (otherT E.res.c.ot x.1) := by
  refine evals_of ?_ fun f o h => ?_
  · refine ((isInput_evt x.1 E.res.c.inputs).and (anyUnifies_evt x.1 E.res.c.useful)).mono fun f ⟨h1, h2⟩ => ?_
    have h1' : Unfold.isInput (E.at f).c.f x.1 noHeap (E.at f).c.inputs ≠ none := h1
    have h2' : usefulOther (E.at f).c noHeap x.1 ≠ none := h2
    unfold other Slash.exo
    cases hb : isBuiltin (E.at f).c.sig x.1 with
    | true => simp
    | false =>
      simp only [Bool.false_eq_true, if_false]
      cases h3 : Unfold.isInput (E.at f).c.f x.1 noHeap (E.at f).c.inputs with
      | none => exact absurd h3 h1'
      | some b =>
        cases b with
        | true => simp
        | false =>
          cases h4 : usefulOther (E.at f).c noHeap x.1 with
          | none => exact absurd h4 h2'
          | some b => cases b <;> simp
  · have := Slash.other_spec (c := (E.at f).c) (fun i _ => by rw [x.2]; simp) h
    have h1 : ¬ Exo (E.at f).c x.1 := he
    have h2 : Useful (E.at f).c x.1 := useful_ground.2 hu
    rw [if_neg h1, if_pos h2] at this
    exact this

section
variable {B : Tm → Prop} {E : Cfg W}

/-- the rules of the new program -/
def Cfg.new (E : Cfg W) : List (WRule W) := E.res.rules.map Prod.fst

theorem make_evals (hord : ∀ l, (E.ord l).Perm l) (hB : ∀ t, B t → vars t = ∅) {i : Nat} {R : WRule W × Kind} (hi : E.res.rules[i]? = some R) {x : GTm} {b : List (Lit W)}
    {ks : List (DUnfold.Tree W)} (hg : GI R.1 x b) (hf : List.Forall₂ (Fit B) b ks) (hd : ∀ d ∈ ks, Der B E.new d) :
    Evals (fun f => (E.at f).make (some i) x.1 ks) (.node i x.1 ks) ∧ Der B E.new (.node i x.1 ks) := by
  have hgr : ∀ t ∈ ks.map (treeTm E.code), vars t = ∅ := fun t ht => by
    obtain ⟨d, hd', rfl⟩ := List.mem_map.1 ht
    exact gr_der hB E.code (hd d hd')
  have hfit : Reorder.Fits (ruleTm E.code R.1) x.1 (ks.map (treeTm E.code)) := by rw [← fits_tm E.code hf]; exact gi_fits E.code hg
  refine ⟨evals_of ?_ fun f t h => ?_, .node i R.1 x b ks (by simp [Cfg.new, hi]) hg hf hd⟩
  · refine (Reorder.C80_ends hord (R := ruleTm E.code R.1) (head := x.1) (tm := treeTm E.code) (dis hgr)).mono fun f h => ?_
    cases h1 : Reorder.construct f E.ord (ruleTm E.code R.1) x.1 (treeTm E.code) ks with
    | none => exact absurd h1 h
    | some o =>
      have := Reorder.C80_kept (dis hgr) hfit h1
      subst this
      simp [Cfg.make, Cfg.at, hi, h1]
  · simp only [Cfg.make, Cfg.at, hi] at h
    cases h1 : Reorder.construct f E.ord (ruleTm E.code R.1) x.1 (treeTm E.code) ks with
    | none => simp [h1] at h
    | some o =>
      have := Reorder.C80_kept (dis hgr) hfit h1
      subst this
      simpa [h1] using h.symm

theorem make_fails (hord : ∀ l, (E.ord l).Perm l) (hB : ∀ t, B t → vars t = ∅) {i : Nat} {R : WRule W × Kind} (hi : E.res.rules[i]? = some R) {x : GTm}
    {ks : List (DUnfold.Tree W)} (hg : ∀ b, ¬ GI R.1 x b) (hd : ∀ d ∈ ks, Der B E.new d) (f : Nat) : (E.at f).make (some i) x.1 ks = none := by
  have hgr : ∀ t ∈ ks.map (treeTm E.code), vars t = ∅ := fun t ht => by
    obtain ⟨d, hd', rfl⟩ := List.mem_map.1 ht
    exact gr_der hB E.code (hd d hd')
  simp only [Cfg.make, Cfg.at, hi]
  cases h1 : Reorder.construct f E.ord (ruleTm E.code R.1) x.1 (treeTm E.code) ks with
  | none => simp
  | some o =>
    cases o with
    | none => simp
    | some ks' =>
      obtain ⟨h2, h3⟩ := Reorder.C80_sound hord (dis hgr) h1
      obtain ⟨b, hb, _⟩ := fits_gi E.code (fun t ht => by
        obtain ⟨d, hd', rfl⟩ := List.mem_map.1 ht
        exact gr_der hB E.code (hd d (h2.mem_iff.1 hd'))) h3
      exact absurd hb (hg b)

theorem guessGo_evals (x : GTm) {ks : List (DUnfold.Tree W)} (hgr : ∀ t ∈ ks.map (treeTm E.code), vars t = ∅) : ∀ (Rs : List (WRule W × Kind)) (i : Nat),
    (∃ (m : Nat) (R : WRule W × Kind), Rs[m]? = some R ∧ Reorder.Fits (ruleTm E.code R.1) x.1 (ks.map (treeTm E.code)) ∧ Evals (fun f => (E.at f).guessGo x.1 ks Rs i) (i + m)) ∨
    ((∀ R ∈ Rs, ¬ Reorder.Fits (ruleTm E.code R.1) x.1 (ks.map (treeTm E.code))) ∧ ∀ f, (E.at f).guessGo x.1 ks Rs i = none)
  | [], i => .inr ⟨by simp, fun f => rfl⟩
  | R :: Rs, i => by
    have hc : Evals (fun f => Subst.coversF f (ruleTm E.code R.1).tm (Rule.mk x.1 (ks.map (treeTm E.code))).tm) (decide (Reorder.Fits (ruleTm E.code R.1) x.1 (ks.map (treeTm E.code)))) := by
      refine evals_of (Subst.C06_covers (dis hgr)).1 fun f b h => ?_
      have := Reorder.covers_fits (dis hgr) h
      cases b <;> simp_all
    by_cases hf : Reorder.Fits (ruleTm E.code R.1) x.1 (ks.map (treeTm E.code))
    · refine .inl ⟨0, R, rfl, hf, ?_⟩
      rw [decide_eq_true hf] at hc
      refine hc.bind (Evals.pure i) (fun f h => ?_) fun f h => ?_
      · simp only [Cfg.guessGo, Cfg.at, h]
      · simp only [Cfg.guessGo, Cfg.at, h]
    · rw [decide_eq_false hf] at hc
      rcases guessGo_evals x hgr Rs (i + 1) with ⟨m, R', h1, h2, h3⟩ | ⟨h1, h2⟩
      · refine .inl ⟨m + 1, R', by simpa using h1, h2, ?_⟩
        rw [show i + (m + 1) = i + 1 + m by omega]
        refine hc.bind h3 (fun f h => ?_) fun f h => ?_
        · simp only [Cfg.guessGo, Cfg.at, h]
        · have : (E.at f).guessGo x.1 ks (R :: Rs) i = (E.at f).guessGo x.1 ks Rs (i + 1) := by
            rw [Cfg.guessGo]; simp only [Cfg.at] at h ⊢; rw [h]
          exact this
      · refine .inr ⟨fun R' h => ?_, hc.fails h2 (fun f h => ?_) fun f h => ?_⟩
        · rcases List.mem_cons.1 h with rfl | h
          · exact hf
          · exact h1 R' h
        · simp only [Cfg.guessGo, Cfg.at, h]
        · rw [Cfg.guessGo]; simp only [Cfg.at] at h ⊢; rw [h]

/-- the rule is found by trying all of them -/
theorem guess_evals (hord : ∀ l, (E.ord l).Perm l) (hB : ∀ t, B t → vars t = ∅) {x : GTm} {ks : List (DUnfold.Tree W)} (hd : ∀ d ∈ ks, Der B E.new d)
    (hn : ∀ d ∈ ks, ∃ n as ls, d = .node n (.app as) ls) :
    (∃ (i : Nat) (R : WRule W × Kind), E.res.rules[i]? = some R ∧ GI R.1 x (ks.map fun d => .sub (treeTm E.code d)) ∧
      Evals (fun f => (E.at f).guess x.1 ks) (.node i x.1 ks) ∧ Der B E.new (.node i x.1 ks)) ∨
    ((∀ R ∈ E.res.rules, ¬ GI R.1 x (ks.map fun d => .sub (treeTm E.code d))) ∧ ∀ f, (E.at f).guess x.1 ks = none) := by
  have hgr : ∀ t ∈ ks.map (treeTm E.code), vars t = ∅ := fun t ht => by
    obtain ⟨d, hd', rfl⟩ := List.mem_map.1 ht
    exact gr_der hB E.code (hd d hd')
  have hfit : List.Forall₂ (Fit B) (ks.map fun d => (.sub (treeTm E.code d) : Lit W)) ks := by
    rw [List.forall₂_map_left_iff, List.forall₂_same]
    intro d hd'
    obtain ⟨n, as, ls, rfl⟩ := hn d hd'
    exact .node n _ ls
  have hgi : ∀ R : WRule W, Reorder.Fits (ruleTm E.code R) x.1 (ks.map (treeTm E.code)) ↔ GI R x (ks.map fun d => .sub (treeTm E.code d)) := by
    intro R
    constructor
    · intro h
      obtain ⟨b, hb, e⟩ := fits_gi E.code hgr h
      have : b = ks.map fun d => .sub (treeTm E.code d) := by
        clear hb h hfit hgr hd
        induction ks generalizing b with
        | nil => simpa using e
        | cons d ks ih =>
          cases b with
          | nil => simp at e
          | cons l b =>
            simp only [List.map_cons, List.cons.injEq] at e ⊢
            refine ⟨?_, ih (fun d h => hn d (List.mem_cons_of_mem _ h)) b e.2⟩
            obtain ⟨n, as, ls, rfl⟩ := hn d (by simp)
            cases l with
            | val k => simp [litTm, treeTm] at e
            | sub t => rw [← e.1]; rfl
      rwa [this] at hb
    · intro h
      have := gi_fits E.code h
      rwa [fits_tm E.code hfit] at this
  rcases guessGo_evals x hgr E.res.rules 0 with ⟨m, R, h1, h2, h3⟩ | ⟨h1, h2⟩
  · rw [Nat.zero_add] at h3
    obtain ⟨a1, a2⟩ := make_evals (B := B) hord hB h1 ((hgi R.1).1 h2) hfit hd
    refine .inl ⟨m, R, h1, (hgi R.1).1 h2, ?_, a2⟩
    refine h3.bind a1 (fun f h => ?_) fun f h => ?_
    · have h : (E.at f).guessGo x.1 ks (E.at f).res.rules 0 = none := h
      simp only [Cfg.guess, h, Cfg.make]
    · have h : (E.at f).guessGo x.1 ks (E.at f).res.rules 0 = some m := h
      simp only [Cfg.guess, h]
  · refine .inr ⟨fun R hR h => h1 R hR ((hgi R.1).2 h), fun f => ?_⟩
    have h : (E.at f).guessGo x.1 ks (E.at f).res.rules 0 = none := h2 f
    simp only [Cfg.guess, h, Cfg.make]

end

/-! ### Lists -/

theorem split2 {α β : Type} {P : α → β → Prop} {a1 : List α} {a : α} {a2 : List α} {l : List β} (h : List.Forall₂ P (a1 ++ a :: a2) l) :
    ∃ l1 c l2, l = l1 ++ c :: l2 ∧ List.Forall₂ P a1 l1 ∧ P a c ∧ List.Forall₂ P a2 l2 := by
  obtain ⟨l1, l', rfl, h1, h2⟩ := DUnfold.forall2_append_left h
  cases h2 with
  | cons h3 h4 => exact ⟨l1, _, _, rfl, h1, h3, h4⟩

theorem join2 {α β : Type} {P : α → β → Prop} {a1 a2 : List α} {a : α} {l1 l2 : List β} {c : β} (h1 : List.Forall₂ P a1 l1) (h : P a c) (h2 : List.Forall₂ P a2 l2) :
    List.Forall₂ P (a1 ++ a :: a2) (l1 ++ c :: l2) := by
  induction h1 with
  | nil => exact .cons h h2
  | cons h3 _ ih => exact .cons h3 ih

theorem mid {α : Type} {l1 l2 : List α} {c : α} {j : Nat} (h : l1.length = j) :
    (l1 ++ c :: l2)[j]? = some c ∧ (l1 ++ c :: l2).take j = l1 ∧ (l1 ++ c :: l2).drop (j + 1) = l2 := by
  subst h
  simp

section
variable {res : Res W} {pos : Nat → Option Nat}

theorem backL_of {ks es : List (DUnfold.Tree W)} (h : List.Forall₂ (fun d e => back res pos e = some d) ks es) : backL res pos es = some ks := by
  induction h with
  | nil => rfl
  | cons h _ ih => rw [backL, h, ih]

theorem plugAt_of {k1 e1 k2 e2 : List (DUnfold.Tree W)} {d s d0 : DUnfold.Tree W} (h1 : List.Forall₂ (fun d e => back res pos e = some d) k1 e1)
    (h : plug res pos s d0 = some d) (h2 : List.Forall₂ (fun d e => back res pos e = some d) k2 e2) :
    plugAt res pos e1.length (e1 ++ s :: e2) d0 = some (k1 ++ d :: k2) := by
  induction h1 with
  | nil => simp only [List.nil_append, List.length_nil]; rw [plugAt, h, backL_of h2]
  | cons h3 _ ih => simp only [List.cons_append, List.length_cons]; rw [plugAt, h3, ih]

variable {M : Type} [CommMonoid M] {v : W → M} {a : Nat → M}

theorem wtL_append (l m : List (DUnfold.Tree W)) : wtL v a (l ++ m) = wtL v a l * wtL v a m := by
  induction l with
  | nil => simp [wtL]
  | cons d l ih => simp only [List.cons_append, wtL, ih, mul_assoc]

theorem wtL_of {a' : Nat → M} {ks es : List (DUnfold.Tree W)} (h : List.Forall₂ (fun d e => wt v a' e = wt v a d) ks es) : wtL v a' es = wtL v a ks := by
  induction h with
  | nil => rfl
  | cons h _ ih => rw [wtL, wtL, h, ih]

end

theorem unw_other (ot : Const) (x : Tm) : unw ot (otherT ot x) = x := by simp [unw, otherT]

theorem unw_id {ot : Const} {x : Tm} (h : hfn x ≠ some ot) : unw ot x = x := by
  unfold unw
  split
  · rename_i c t
    rw [if_neg]
    rintro rfl
    exact h rfl
  · rfl

theorem numer_slash (sl : Const) (y x : Tm) : numer (slashT sl y x) = y := rfl

/-! ### The mapping -/

theorem mem_slots_get {pos : Nat → Option Nat} : ∀ (rs : List (WRule W)) (i n : Nat) (r : WRule W), rs[n]? = some r → (r, Slash.slotOf pos r (i + n)) ∈ Slash.slots pos rs i
  | [], i, n, r, h => by simp at h
  | a :: rs, i, 0, r, h => by
    simp only [List.getElem?_cons_zero, Option.some.injEq] at h
    subst h
    simp [Slash.slots]
  | a :: rs, i, n + 1, r, h => by
    have := mem_slots_get (pos := pos) rs (i + 1) n r (by simpa using h)
    rw [Nat.add_assoc, Nat.add_comm 1] at this
    rw [Slash.slots]
    exact List.mem_cons_of_mem _ this

/-- a slash transformation, and what can be said about its result -/
structure Ctx [CSemi W] (B : Tm → Prop) (E : Cfg W) (sig : Sigs) (fv cv : Nat → Nat) (rules : List (WRule W)) (inputs : List Tm) (x : Tm) (k : Nat) : Prop where
  S : Setup sig fv cv rules inputs E.pos k
  M : Made rules E.pos E.res
  Q : Eqs rules E.pos E.res
  F : Facts sig fv rules inputs E.pos x k E.res
  ord : ∀ l, (E.ord l).Perm l
  gr : ∀ t, B t → vars t = ∅
  bi : ∀ t, B t → isBuiltin sig t = true

section
variable [CSemi W] {B : Tm → Prop} {E : Cfg W} {sig : Sigs} {fv cv : Nat → Nat} {rules : List (WRule W)} {inputs : List Tm} {X0 : Tm} {k : Nat}

namespace Ctx
variable (C : Ctx B E sig fv cv rules inputs X0 k)
include C

theorem named {r : WRule W} (hr : r ∈ rules) : Named r.head := (C.S.plain.named r hr).head

theorem hfn_x {r : WRule W} (hr : r ∈ rules) {x : GTm} (hx : Inst r.head x) : hfn x.1 ≠ some E.res.c.sl ∧ hfn x.1 ≠ some E.res.c.ot := by
  rw [inst_hfn (C.named hr) hx]
  exact ⟨(C.F.sl r hr).1, (C.F.ot r hr).1⟩

theorem exo_node {r : WRule W} (hr : r ∈ rules) {x : GTm} (hx : Inst r.head x) {s : Tm} (hn : Named s) (hs : Inst s x) : ¬ Exo E.res.c s := by
  intro h
  have h1 : sigOf s = sigOf r.head := by rw [← inst_sig hn hs, inst_sig (C.named hr) hx]
  rcases h with h | ⟨i, hi, z, h2, h3⟩
  · rw [C.F.sigs, Slash.sigOf_builtin (C.named hr) h1, C.S.plain.heads r hr] at h; simp at h
  · rw [C.F.ins] at hi
    apply C.S.heads r hr i hi
    rw [← h1, ← inst_sig hn h3, inst_sig (C.S.named i hi) h2]

theorem exo_x {r : WRule W} (hr : r ∈ rules) {x : GTm} (hx : Inst r.head x) : ¬ Exo E.res.c x.1 := by
  refine C.exo_node hr hx ?_ (inst_ground.2 rfl)
  exact (Slash.sigOf_hfn (C.named hr) (inst_sig (C.named hr) hx)).2

theorem node {r : WRule W} (hr : r ∈ rules) {x : GTm} (hx : Inst r.head x) : ∃ s ∈ E.res.nodes, Inst s x ∧ ¬ Exo E.res.c s := by
  obtain ⟨s, hs, h⟩ := C.F.cov _ (Slash.mem_terms_head hr)
  have := Slash.inst_of_instanceOf h hx
  exact ⟨s, hs, this, C.exo_node hr hx (C.F.nodes s hs).named this⟩

theorem useful_head {r : WRule W} (hr : r ∈ rules) {x : GTm} (hx : Inst r.head x) (hu : Used E.res.c x.1) : Useful E.res.c r.head := by
  obtain ⟨u, hu, hx'⟩ := hu
  rw [is_iff] at hx'
  refine ⟨u, hu, ?_⟩
  rw [C.F.useful] at hu
  rcases List.mem_cons.1 hu with rfl | hu
  · refine Slash.unify_of_meet ?_ hx hx'
    rw [C.F.X]
    exact Slash.old_disjoint C.S.ifv (fun n hn => C.S.oldR r hr n (by simp [rvars, hn])) X0
  · exact C.S.unif r hr u hu x hx hx'

theorem used_X {x : GTm} (h : Inst E.res.c.X x) : Used E.res.c x.1 := ⟨_, by rw [C.F.useful]; simp, is_iff.2 h⟩

theorem dis_X {r : WRule W} (hr : r ∈ rules) (n : Nat) (hn : n ∈ rvars r) : n ∉ vars E.res.c.X := by
  intro h
  rw [C.F.X] at h
  obtain ⟨i, hi, _, rfl⟩ := (freshV_spec C.S.ifv k X0).2.2 n h
  exact C.S.oldR r hr _ hn i hi rfl

/-- the body of an old rule has no new name -/
theorem no_new {r : WRule W} (hr : r ∈ rules) {l : Lit W} (hl : l ∈ r.body) {θ : Nat → GTm} {t : Tm} (h : glit θ l = .sub t) : hfn t ≠ some E.res.c.sl ∧ hfn t ≠ some E.res.c.ot := by
  cases l with
  | val k => simp [glit] at h
  | sub q =>
    simp only [glit, Lit.sub.injEq] at h
    have hq := (C.S.plain.named r hr).body q hl
    rw [← h, inst_hfn hq ⟨θ, rfl⟩]
    exact ⟨(C.F.sl r hr).2 q hl, (C.F.ot r hr).2 q hl⟩

/-- the subgoal at a position -/
theorem slot {n j : Nat} {r : WRule W} {q : Tm} (hr : rules[n]? = some r) (hp : E.pos n = some j) (hq : r.body[j]? = some (.sub q)) :
    q ∈ E.res.c.useful ∧ q ∈ usefulList E.pos rules 0 ∧ isBuiltin sig q = false ∧ Named q ∧ ((∃ z, Inst E.res.c.X z ∧ Inst q z) → ∀ z, Inst q z → Inst E.res.c.X z) := by
  have hs : Slash.slotOf E.pos r n = some (r.body.take j, q, r.body.drop (j + 1)) := by simp [Slash.slotOf, hp, hq]
  have hm : (r, Slash.slotOf E.pos r n) ∈ Slash.slots E.pos rules 0 := by
    have := mem_slots_get (pos := E.pos) rules 0 n r hr
    simpa using this
  have hu : q ∈ usefulList E.pos rules 0 := Slash.slots_useful.2 ⟨_, hm, _, _, hs⟩
  obtain ⟨_, h2, h3⟩ := C.Q.slot _ hm _ _ _ hs
  exact ⟨by rw [C.F.useful]; exact List.mem_cons_of_mem _ hu, hu, by rw [← C.F.sigs]; exact h2,
    (C.S.plain.named r (List.mem_of_getElem? hr)).body q (List.mem_of_getElem? hq), h3⟩

/-- which rule has a frozen item and a slashed item for its body -/
theorem kind_pair {R : WRule W × Kind} (hR : R ∈ E.res.rules) {x y z z' : GTm} (hx : hfn x.1 ≠ some E.res.c.sl)
    (h : GI R.1 x [.sub (otherT E.res.c.ot z.1), .sub (slashT E.res.c.sl y.1 z'.1)]) : R.2 = .rso := by
  have hs := C.M.src R hR
  unfold Src at hs
  cases hk : R.2 with
  | base =>
    rw [hk] at hs
    obtain ⟨θ, _, h⟩ := (hs _ _).1 h
    simp at h
  | o n =>
    rw [hk] at hs
    obtain ⟨r, hr, _, hs⟩ := hs
    obtain ⟨θ, _, h⟩ := (hs _ _).1 h
    have : (Lit.sub (slashT E.res.c.sl y.1 z'.1) : Lit W) ∈ r.body.map (glit θ) := by rw [h]; simp
    obtain ⟨l, hl, e⟩ := List.mem_map.1 this
    exact absurd rfl (C.no_new (List.mem_of_getElem? hr) hl e).1
  | ss n =>
    rw [hk] at hs
    obtain ⟨r, j, q, hr, _, _, hs⟩ := hs
    obtain ⟨θ, h, _⟩ := (hs _ _).1 h
    rw [← h, Slash.gsub_slashT] at hx
    exact absurd rfl hx
  | oo n =>
    rw [hk] at hs
    obtain ⟨r, j, q, hr, _, hq, _, hs⟩ := hs
    obtain ⟨θ, _, h⟩ := (hs _ _).1 h
    simp only at h
    have : (Lit.sub (slashT E.res.c.sl y.1 z'.1) : Lit W) ∈ (r.body.take j ++ .sub (if Exo E.res.c q then q else otherT E.res.c.ot q) :: r.body.drop (j + 1)).map (glit θ) := by rw [h]; simp
    obtain ⟨l, hl, e⟩ := List.mem_map.1 this
    rcases List.mem_append.1 hl with hl | hl
    · exact absurd rfl (C.no_new (List.mem_of_getElem? hr) (List.mem_of_mem_take hl) e).1
    · rcases List.mem_cons.1 hl with rfl | hl
      · by_cases hE : Exo E.res.c q
        · rw [if_pos hE] at e
          exact absurd rfl (C.no_new (List.mem_of_getElem? hr) (List.mem_of_getElem? hq) e).1
        · rw [if_neg hE] at e
          simp [glit, gsub, slashT, otherT] at e
      · exact absurd rfl (C.no_new (List.mem_of_getElem? hr) (List.mem_of_mem_drop hl) e).1
  | ro =>
    rw [hk] at hs
    obtain ⟨s, _, hs⟩ := hs
    have := ((hs _ _).1 h).2
    split at this
    · simp only [List.cons.injEq, Lit.sub.injEq, slashT, nmT, Tm.app.injEq, Tm.con.injEq, and_true] at this
      exact absurd this.2.1 C.F.slnm
    · simp at this
  | rso => rfl

/-- which rule has a frozen item for its body -/
theorem kind_one {R : WRule W × Kind} (hR : R ∈ E.res.rules) {x : GTm} (hx : hfn x.1 ≠ some E.res.c.sl ∧ hfn x.1 ≠ some E.res.c.ot)
    (h : GI R.1 x [.sub (otherT E.res.c.ot x.1)]) : R.2 = .ro ∧ ∃ s ∈ E.res.nodes, Inst s x ∧ ¬ ∃ z, Inst E.res.c.X z ∧ Inst s z := by
  have hs := C.M.src R hR
  unfold Src at hs
  cases hk : R.2 with
  | base =>
    rw [hk] at hs
    obtain ⟨θ, _, h⟩ := (hs _ _).1 h
    simp at h
  | o n =>
    rw [hk] at hs
    obtain ⟨r, hr, _, hs⟩ := hs
    obtain ⟨θ, _, h⟩ := (hs _ _).1 h
    have : (Lit.sub (otherT E.res.c.ot x.1) : Lit W) ∈ r.body.map (glit θ) := by rw [h]; simp
    obtain ⟨l, hl, e⟩ := List.mem_map.1 this
    exact absurd rfl (C.no_new (List.mem_of_getElem? hr) hl e).2
  | ss n =>
    rw [hk] at hs
    obtain ⟨r, j, q, hr, _, _, hs⟩ := hs
    obtain ⟨θ, h, _⟩ := (hs _ _).1 h
    rw [← h, Slash.gsub_slashT] at hx
    exact absurd rfl hx.1
  | oo n =>
    rw [hk] at hs
    obtain ⟨r, j, q, hr, hp, hq, _, hs⟩ := hs
    obtain ⟨θ, h0, h⟩ := (hs _ _).1 h
    simp only at h h0
    have : (Lit.sub (otherT E.res.c.ot x.1) : Lit W) ∈ (r.body.take j ++ .sub (if Exo E.res.c q then q else otherT E.res.c.ot q) :: r.body.drop (j + 1)).map (glit θ) := by rw [h]; simp
    obtain ⟨l, hl, e⟩ := List.mem_map.1 this
    rcases List.mem_append.1 hl with hl | hl
    · exact absurd rfl (C.no_new (List.mem_of_getElem? hr) (List.mem_of_mem_take hl) e).2
    · rcases List.mem_cons.1 hl with rfl | hl
      · by_cases hE : Exo E.res.c q
        · rw [if_pos hE] at e
          exact absurd rfl (C.no_new (List.mem_of_getElem? hr) (List.mem_of_getElem? hq) e).2
        · rw [if_neg hE] at e
          simp only [glit, Lit.sub.injEq, Slash.gsub_otherT] at e
          have e' : gsub θ q = x := Slash.oitem_inj.1 (Subtype.ext e)
          unfold wrap at h0
          by_cases hU : Useful E.res.c r.head
          · rw [if_pos hU, Slash.gsub_otherT] at h0
            rw [← h0] at hx
            exact absurd rfl hx.2
          · rw [if_neg hU] at h0
            obtain ⟨s1, s2, _⟩ := C.slot hr hp hq
            obtain ⟨σ, hσ⟩ := C.S.unif r (List.mem_of_getElem? hr) q s2 x ⟨θ, h0⟩ ⟨θ, e'⟩
            exact absurd ⟨q, s1, σ, hσ⟩ hU
      · exact absurd rfl (C.no_new (List.mem_of_getElem? hr) (List.mem_of_mem_drop hl) e).2
  | ro =>
    rw [hk] at hs
    obtain ⟨s, hn, hs⟩ := hs
    obtain ⟨h1, h2⟩ := (hs _ _).1 h
    refine ⟨rfl, s, hn, h1, fun hm => ?_⟩
    rw [if_pos hm] at h2
    simp at h2
  | rso =>
    rw [hk] at hs
    obtain ⟨s, _, s', _, hs⟩ := hs
    obtain ⟨z, _, _, _, h⟩ := (hs _ _).1 h
    simp at h

/-- the top of a derivation with an instance of `x` on its spine -/
theorem rso_ok {r r' : WRule W} (hr : r ∈ rules) {x z : GTm} (hx : Inst r.head x) (hr' : r' ∈ rules) (hz : Inst r'.head z) (hX : Inst E.res.c.X z)
    {io is : Nat} {ko ls : List (DUnfold.Tree W)} (ho : Der B E.new (.node io (otherT E.res.c.ot z.1) ko)) (hs : Der B E.new (.node is (slashT E.res.c.sl x.1 z.1) ls)) :
    ∃ i, Evals (fun f => (E.at f).guess x.1 [.node io (otherT E.res.c.ot z.1) ko, .node is (slashT E.res.c.sl x.1 z.1) ls])
        (.node i x.1 [.node io (otherT E.res.c.ot z.1) ko, .node is (slashT E.res.c.sl x.1 z.1) ls]) ∧
      Der B E.new (.node i x.1 [.node io (otherT E.res.c.ot z.1) ko, .node is (slashT E.res.c.sl x.1 z.1) ls]) ∧ kd E.res i = some .rso := by
  rcases guess_evals (E := E) (x := x) C.ord C.gr (ks := [.node io (otherT E.res.c.ot z.1) ko, .node is (slashT E.res.c.sl x.1 z.1) ls])
    (by intro d hd; simp only [List.mem_cons, List.not_mem_nil, or_false] at hd; rcases hd with rfl | rfl; exact ho; exact hs)
    (by intro d hd; simp only [List.mem_cons, List.not_mem_nil, or_false] at hd; rcases hd with rfl | rfl <;> exact ⟨_, _, _, rfl⟩) with ⟨i, R, h1, h2, h3, h4⟩ | ⟨h1, _⟩
  · refine ⟨i, h3, h4, ?_⟩
    rw [kd, h1, Option.map_some, C.kind_pair (List.mem_of_getElem? h1) (C.hfn_x hr hx).1 h2]
  · exfalso
    obtain ⟨s, hs1, hs2, hs3⟩ := C.node hr hx
    obtain ⟨s', hs1', hs2', hs3'⟩ := C.node hr' hz
    obtain ⟨t, ht, h⟩ := (C.M.node s hs1 hs3).2 s' hs1' ⟨z, hX, hs2'⟩
    refine h1 _ ht ((h _ _).2 ⟨z, hs2, hs2', hX, ?_⟩)
    have : ¬ ExoH E.res.c s' := by
      rintro (h' | ⟨i, hi, z, a1, a2, a3⟩)
      · exact hs3' (.inl h')
      · exact hs3' (.inr ⟨i, hi, z, a1, a3⟩)
    rw [if_neg this]
    rfl

/-- the top of a derivation without one -/
theorem ro_ok {r : WRule W} (hr : r ∈ rules) {x : GTm} (hx : Inst r.head x) (hu : Used E.res.c x.1) {io : Nat} {ko : List (DUnfold.Tree W)}
    (ho : Der B E.new (.node io (otherT E.res.c.ot x.1) ko)) :
    ((∃ s ∈ E.res.nodes, Is s x.1 ∧ ¬ ∃ z, Inst E.res.c.X z ∧ Inst s z) ∧
      ∃ i, Evals (fun f => (E.at f).guess x.1 [.node io (otherT E.res.c.ot x.1) ko]) (.node i x.1 [.node io (otherT E.res.c.ot x.1) ko]) ∧
        Der B E.new (.node i x.1 [.node io (otherT E.res.c.ot x.1) ko]) ∧ kd E.res i = some .ro) ∨
    ((¬ ∃ s ∈ E.res.nodes, Is s x.1 ∧ ¬ ∃ z, Inst E.res.c.X z ∧ Inst s z) ∧ ∀ f, (E.at f).guess x.1 [.node io (otherT E.res.c.ot x.1) ko] = none) := by
  rcases guess_evals (E := E) (x := x) C.ord C.gr (ks := [.node io (otherT E.res.c.ot x.1) ko])
    (by intro d hd; rw [List.mem_singleton] at hd; subst hd; exact ho)
    (by intro d hd; rw [List.mem_singleton] at hd; subst hd; exact ⟨_, _, _, rfl⟩) with ⟨i, R, h1, h2, h3, h4⟩ | ⟨h1, h2⟩
  · obtain ⟨hk, s, hs, hi, hm⟩ := C.kind_one (List.mem_of_getElem? h1) (C.hfn_x hr hx) h2
    exact .inl ⟨⟨s, hs, is_iff.2 hi, hm⟩, i, h3, h4, by rw [kd, h1, Option.map_some, hk]⟩
  · refine .inr ⟨?_, h2⟩
    rintro ⟨s, hs, hi, hm⟩
    rw [is_iff] at hi
    obtain ⟨t, ht, h⟩ := (C.M.node s hs (C.exo_node hr hx (C.F.nodes s hs).named hi)).1 (by
      obtain ⟨u, hu, h⟩ := hu
      exact ⟨u, hu, x, hi, is_iff.1 h⟩) hm
    exact h1 _ ht (h x hi)

/-- the rule of a kind -/
theorem idx {K : Kind} {t : WRule W} (h : (t, K) ∈ E.res.rules) : ∃ (i : Nat) (R : WRule W), E.idx K = some i ∧ E.res.rules[i]? = some (R, K) := by
  have hm : K ∈ E.res.rules.map Prod.snd := List.mem_map.2 ⟨_, h, rfl⟩
  unfold Cfg.idx
  cases hi : (E.res.rules.map Prod.snd).idxOf? K with
  | none => rw [List.idxOf?_eq_none_iff] at hi; exact absurd hm hi
  | some i =>
    rw [List.idxOf?_eq_some_iff] at hi
    obtain ⟨hlt, he, _⟩ := hi
    have hlt' : i < E.res.rules.length := by simpa using hlt
    rw [List.getElem_map] at he
    exact ⟨i, E.res.rules[i].1, rfl, by rw [List.getElem?_eq_getElem hlt', ← he]⟩

end Ctx

/-- the last steps for an item that is no instance of `x`, without one below it (175-179, 219-222) -/
def fin (E : Cfg W) (K : Kind) (x : Tm) (ks : List (DUnfold.Tree W)) : Option (DUnfold.Tree W) :=
  match usefulOther E.c noHeap x with
  | none => none
  | some true =>
    match other E.c noHeap x with
    | none => none
    | some fx => match E.make (E.idx K) fx ks with
      | some o => E.guess x [o]
      | none => none
  | some false => E.make (E.idx K) x ks

/-- what is known of the result -/
structure Post (B : Tm → Prop) (E : Cfg W) (d e : DUnfold.Tree W) : Prop where
  der : Der B E.new e
  item : treeTm E.code e = treeTm E.code d
  wt : ∀ (M : Type) [CommMonoid M] (v : W → M) (a : Nat → M), wt v (up E.res a) e = wt v a d
  back : back E.res E.pos e = some d

/-- the three forms of the result -/
def Shape (E : Cfg W) (rules : List (WRule W)) : DUnfold.Tree W → DUnfold.Tree W → Prop
  | .const k, e => e = .const k
  | .bi t, e => e = .bi t
  | .node n x ks, e =>
    (Hit E.res.c.X E.pos (.node n x ks) ∧ ∃ (i io is : Nat) (ko ls : List (DUnfold.Tree W)) (z : GTm),
      e = .node i x [.node io (otherT E.res.c.ot z.1) ko, .node is (slashT E.res.c.sl x z.1) ls] ∧ Inst E.res.c.X z ∧ (∃ r ∈ rules, Inst r.head z) ∧
      (∃ d0, back E.res E.pos (.node io (otherT E.res.c.ot z.1) ko) = some d0 ∧ plug E.res E.pos (.node is (slashT E.res.c.sl x z.1) ls) d0 = some (.node n x ks)) ∧
      ∀ (M : Type) [CommMonoid M] (v : W → M) (a : Nat → M), wt v (up E.res a) (.node io (otherT E.res.c.ot z.1) ko) *
        wt v (up E.res a) (.node is (slashT E.res.c.sl x z.1) ls) = wt v a (.node n x ks)) ∨
    (¬ Hit E.res.c.X E.pos (.node n x ks) ∧ Used E.res.c x ∧ ∃ (i io : Nat) (ko : List (DUnfold.Tree W)), e = .node i x [.node io (otherT E.res.c.ot x) ko] ∧
      back E.res E.pos (.node io (otherT E.res.c.ot x) ko) = some (.node n x ks) ∧
      ∀ (M : Type) [CommMonoid M] (v : W → M) (a : Nat → M), wt v (up E.res a) (.node io (otherT E.res.c.ot x) ko) = wt v a (.node n x ks)) ∨
    (¬ Hit E.res.c.X E.pos (.node n x ks) ∧ ¬ Used E.res.c x ∧ ∃ (i : Nat) (es : List (DUnfold.Tree W)), e = .node i x es)

namespace Ctx
variable (C : Ctx B E sig fv cv rules inputs X0 k)
include C

theorem fin_ok {n : Nat} {K : Kind} (hK : K = .o n ∨ K = .oo n) {i : Nat} {R : WRule W} (hi : E.idx K = some i) (hR : E.res.rules[i]? = some (R, K))
    {r : WRule W} (hr : rules[n]? = some r) {body : List (Lit W)} (hs : Same R ⟨wrap E.res.c r.head, body⟩) {θ : Nat → GTm} {ks es : List (DUnfold.Tree W)}
    (hf : List.Forall₂ (Fit B) (body.map (glit θ)) es) (hd : ∀ d ∈ es, Der B E.new d) (hb : backL E.res E.pos es = some ks)
    (hw : ∀ (M : Type) [CommMonoid M] (v : W → M) (a : Nat → M), wtL v (up E.res a) es = wtL v a ks) (hH : ¬ Hit E.res.c.X E.pos (.node n (gsub θ r.head).1 ks)) :
    (((Used E.res.c (gsub θ r.head).1 → ∃ s ∈ E.res.nodes, Is s (gsub θ r.head).1 ∧ ¬ ∃ z, Inst E.res.c.X z ∧ Inst s z) ∧
        (¬ Used E.res.c (gsub θ r.head).1 → ¬ Useful E.res.c r.head)) ∧
      ∃ e, Evals (fun f => fin (E.at f) K (gsub θ r.head).1 es) e ∧ Post B E (.node n (gsub θ r.head).1 ks) e ∧ Shape E rules (.node n (gsub θ r.head).1 ks) e) ∨
    (¬ ((Used E.res.c (gsub θ r.head).1 → ∃ s ∈ E.res.nodes, Is s (gsub θ r.head).1 ∧ ¬ ∃ z, Inst E.res.c.X z ∧ Inst s z) ∧
        (¬ Used E.res.c (gsub θ r.head).1 → ¬ Useful E.res.c r.head)) ∧ ∀ f, fin (E.at f) K (gsub θ r.head).1 es = none) := by
  set x := gsub θ r.head with hx
  have hrm : r ∈ rules := List.mem_of_getElem? hr
  have hin : Inst r.head x := ⟨θ, rfl⟩
  have hkd : kd E.res i = some K := by rw [kd, hR]; rfl
  have hup : ∀ (M : Type) [CommMonoid M] (a : Nat → M), up E.res a i = a n := fun M _ a => by
    unfold up; rw [hkd]; rcases hK with rfl | rfl <;> rfl
  have hback : ∀ h, back E.res E.pos (.node i h es) = some (.node n (unw E.res.c.ot h) ks) := fun h => by
    rw [back, hkd]; rcases hK with rfl | rfl <;> simp only [hb, Option.map_some]
  have hwt : ∀ h (M : Type) [CommMonoid M] (v : W → M) (a : Nat → M), wt v (up E.res a) (.node i h es) = wt v a (.node n x.1 ks) := fun h M _ v a => by
    rw [wt, wt, hup, hw]
  have huse := useful_evals E x
  by_cases hu : Used E.res.c x.1
  · rw [decide_eq_true hu] at huse
    have hU := C.useful_head hrm hin hu
    have hoth := other_evals E (C.exo_x hrm hin) hu
    have hg : GI R (oitem E.res.c.ot x) (body.map (glit θ)) := (hs _ _).2 ⟨θ, by rw [wrap, if_pos hU, Slash.gsub_otherT], rfl⟩
    obtain ⟨m1, m2⟩ := make_evals C.ord C.gr hR hg hf hd
    have m1 : Evals (fun f => (E.at f).make (some i) (otherT E.res.c.ot x.1) es) (.node i (otherT E.res.c.ot x.1) es) := m1
    have m2 : Der B E.new (.node i (otherT E.res.c.ot x.1) es) := m2
    have hbk := hback (otherT E.res.c.ot x.1)
    rw [unw_other] at hbk
    have hfin : ∀ f, usefulOther (E.at f).c noHeap x.1 = some true → other (E.at f).c noHeap x.1 = some (otherT E.res.c.ot x.1) →
        (E.at f).make (some i) (otherT E.res.c.ot x.1) es = some (.node i (otherT E.res.c.ot x.1) es) →
        fin (E.at f) K x.1 es = (E.at f).guess x.1 [.node i (otherT E.res.c.ot x.1) es] := fun f e1 e2 e3 => by
      have e3 : (E.at f).make ((E.at f).idx K) (otherT E.res.c.ot x.1) es = some (.node i (otherT E.res.c.ot x.1) es) := by
        rw [show (E.at f).idx K = some i from hi]; exact e3
      simp only [fin, e1, e2, e3]
    have hnone : ∀ f, (usefulOther (E.at f).c noHeap x.1 = none ∨ usefulOther (E.at f).c noHeap x.1 = some true ∧
        (other (E.at f).c noHeap x.1 = none ∨ other (E.at f).c noHeap x.1 = some (otherT E.res.c.ot x.1) ∧ (E.at f).make (some i) (otherT E.res.c.ot x.1) es = none)) →
        fin (E.at f) K x.1 es = none := fun f h => by
      rcases h with h | ⟨h, h' | ⟨h', h''⟩⟩
      · simp only [fin, h]
      · simp only [fin, h, h']
      · have e3 : (E.at f).make ((E.at f).idx K) (otherT E.res.c.ot x.1) es = none := by
          rw [show (E.at f).idx K = some i from hi]; exact h''
        simp only [fin, h, h', e3]
    rcases C.ro_ok hrm hin hu m2 with ⟨hok, I, g1, g2, g3⟩ | ⟨hno, g1⟩
    · refine .inl ⟨⟨fun _ => hok, fun h => absurd hu h⟩, .node I x.1 [.node i (otherT E.res.c.ot x.1) es], ⟨?_, fun f => ?_⟩, ⟨g2, rfl, ?_, ?_⟩, ?_⟩
      · exact ((huse.1.and hoth.1).and (m1.1.and g1.1)).mono fun f ⟨⟨e1, e2⟩, e3, e4⟩ => (hfin f e1 e2 e3).trans e4
      · rcases huse.2 f with e1 | e1
        · exact .inl (hnone f (.inl e1))
        · rcases hoth.2 f with e2 | e2
          · exact .inl (hnone f (.inr ⟨e1, .inl e2⟩))
          · rcases m1.2 f with e3 | e3
            · exact .inl (hnone f (.inr ⟨e1, .inr ⟨e2, e3⟩⟩))
            · exact (g1.2 f).imp (hfin f e1 e2 e3).trans (hfin f e1 e2 e3).trans
      · intro M _ v a
        rw [wt, wtL, wtL, mul_one, hwt]
        simp [up, g3]
      · rw [back, g3]; simp only [back1]; exact hbk
      · exact .inr (.inl ⟨hH, hu, I, i, es, rfl, hbk, fun M _ v a => hwt _ M v a⟩)
    · refine .inr ⟨fun h => hno (h.1 hu), fun f => ?_⟩
      rcases huse.2 f with e1 | e1
      · exact hnone f (.inl e1)
      · rcases hoth.2 f with e2 | e2
        · exact hnone f (.inr ⟨e1, .inl e2⟩)
        · rcases m1.2 f with e3 | e3
          · exact hnone f (.inr ⟨e1, .inr ⟨e2, e3⟩⟩)
          · exact (hfin f e1 e2 e3).trans (g1 f)
  · rw [decide_eq_false hu] at huse
    have hfin : ∀ f, usefulOther (E.at f).c noHeap x.1 = some false → fin (E.at f) K x.1 es = (E.at f).make (some i) x.1 es := fun f e1 => by
      simp only [fin, e1]
      rw [show (E.at f).idx K = some i from hi]
    have h0 : ∀ f, usefulOther (E.at f).c noHeap x.1 = none → fin (E.at f) K x.1 es = none := fun f e1 => by simp only [fin, e1]
    by_cases hU : Useful E.res.c r.head
    · refine .inr ⟨fun h => h.2 hu hU, huse.fails (make_fails C.ord C.gr hR (fun b hg => ?_) hd) h0 hfin⟩
      obtain ⟨φ, h1, _⟩ := (hs _ _).1 hg
      rw [wrap, if_pos hU, Slash.gsub_otherT] at h1
      have := (C.hfn_x hrm hin).2
      rw [← h1] at this
      exact this rfl
    · have hg : GI R x (body.map (glit θ)) := (hs _ _).2 ⟨θ, by rw [wrap, if_neg hU], rfl⟩
      obtain ⟨m1, m2⟩ := make_evals C.ord C.gr hR hg hf hd
      refine .inl ⟨⟨fun h => absurd h hu, fun _ => hU⟩, _, huse.bind m1 h0 hfin, ⟨m2, rfl, fun M _ v a => hwt _ M v a, ?_⟩, .inr (.inr ⟨hH, hu, _, _, rfl⟩)⟩
      rw [hback, unw_id (C.hfn_x hrm hin).2]

/-- a derivation as it is before its top rule is mapped -/
def Done (B : Tm → Prop) (E : Cfg W) (rules : List (WRule W)) (d e : DUnfold.Tree W) : Prop := Post B E d e ∧ Shape E rules d e

theorem fits_done {b : List (Lit W)} {ks es : List (DUnfold.Tree W)} (h1 : List.Forall₂ (Fit B) b ks) (h2 : List.Forall₂ (Done B E rules) ks es) : List.Forall₂ (Fit B) b es := by
  induction h1 generalizing es with
  | nil => cases h2; exact .nil
  | cons h _ ih =>
    cases h2 with
    | cons h' h2 =>
      refine .cons ?_ (ih h2)
      obtain ⟨hp, hs⟩ := h'
      cases h with
      | val k => have hs : _ = _ := hs; subst hs; exact .val k
      | bi t hb => have hs : _ = _ := hs; subst hs; exact .bi t hb
      | node n t ks =>
        have hi := hp.item
        rcases hs with ⟨_, i, io, is, ko, ls, z, rfl, _⟩ | ⟨_, _, i, io, ko, rfl, _⟩ | ⟨_, _, i, es, rfl⟩
        · exact .node ..
        · exact .node ..
        · exact .node ..

theorem done_back {ks es : List (DUnfold.Tree W)} (h : List.Forall₂ (Done B E rules) ks es) : List.Forall₂ (fun d e => back E.res E.pos e = some d) ks es :=
  h.imp fun _ _ h => h.1.back

theorem done_wt {M : Type} [CommMonoid M] (v : W → M) (a : Nat → M) {ks es : List (DUnfold.Tree W)} (h : List.Forall₂ (Done B E rules) ks es) :
    wtL v (up E.res a) es = wtL v a ks := wtL_of (h.imp fun _ _ h => h.1.wt M v a)

theorem done_der {ks es : List (DUnfold.Tree W)} (h : List.Forall₂ (Done B E rules) ks es) : ∀ e ∈ es, Der B E.new e := by
  intro e he
  obtain ⟨d, _, h⟩ : ∃ d ∈ ks, Done B E rules d e := by
    clear C
    induction h with
    | nil => simp at he
    | cons h0 _ ih =>
      rcases List.mem_cons.1 he with rfl | he
      · exact ⟨_, by simp, h0⟩
      · obtain ⟨d, hd, h⟩ := ih he; exact ⟨d, List.mem_cons_of_mem _ hd, h⟩
  exact h.1.der

/-- a rule without position -/
theorem step_none {n : Nat} {r : WRule W} (hr : rules[n]? = some r) (hp : E.pos n = none) {θ : Nat → GTm} {ks es : List (DUnfold.Tree W)}
    (hf : List.Forall₂ (Fit B) (r.body.map (glit θ)) ks) (hd : List.Forall₂ (Done B E rules) ks es) (hok : ∀ d ∈ ks, OK E.res.c rules E.pos E.res.nodes d) :
    (OK E.res.c rules E.pos E.res.nodes (.node n (gsub θ r.head).1 ks) ∧
      ∃ e, Evals (fun f => (E.at f).step n (gsub θ r.head).1 es) e ∧ Done B E rules (.node n (gsub θ r.head).1 ks) e) ∨
    (¬ OK E.res.c rules E.pos E.res.nodes (.node n (gsub θ r.head).1 ks) ∧ ∀ f, (E.at f).step n (gsub θ r.head).1 es = none) := by
  have hrm : r ∈ rules := List.mem_of_getElem? hr
  have hin : Inst r.head (gsub θ r.head) := ⟨θ, rfl⟩
  have hu := unif_evals (X := E.res.c.X) (gsub θ r.head)
  obtain ⟨out, h1, h2, _⟩ := C.M.has n r hr
  obtain ⟨t, ht⟩ := h2 hp
  obtain ⟨i, R, hi, hR⟩ := C.idx (h1 _ ht)
  obtain ⟨r', hr', _, hs⟩ : ∃ r', rules[n]? = some r' ∧ E.pos n = none ∧ Same R ⟨wrap E.res.c r'.head, r'.body⟩ := C.M.src _ (List.mem_of_getElem? hR)
  rw [hr, Option.some.injEq] at hr'
  subst hr'
  have hf' := C.fits_done hf hd
  have hpj : ∀ j, E.pos n ≠ some j := fun j h => by rw [hp] at h; simp at h
  have hfin0 : ∀ f, unifiesF f (gsub θ r.head).1 E.res.c.X noHeap = none → (E.at f).step n (gsub θ r.head).1 es = none := fun f e => by
    have e : unifiesF (E.at f).f (gsub θ r.head).1 (E.at f).res.c.X noHeap = none := e
    have hp : (E.at f).pos n = none := hp
    simp only [Cfg.step, hp, e]
  by_cases hX : Inst E.res.c.X (gsub θ r.head)
  · rw [decide_eq_true hX] at hu
    set x := gsub θ r.head with hx
    have hus := C.used_X hX
    have hoth := other_evals E (C.exo_x hrm hin) hus
    have hU := C.useful_head hrm hin hus
    have hkd : kd E.res i = some (.o n) := by rw [kd, hR]; rfl
    have hg : GI R (oitem E.res.c.ot x) (r.body.map (glit θ)) := (hs _ _).2 ⟨θ, by rw [wrap, if_pos hU, Slash.gsub_otherT], rfl⟩
    obtain ⟨m1, m2⟩ := make_evals C.ord C.gr hR hg hf' (C.done_der hd)
    have m1 : Evals (fun f => (E.at f).make (some i) (otherT E.res.c.ot x.1) es) (.node i (otherT E.res.c.ot x.1) es) := m1
    have m2 : Der B E.new (.node i (otherT E.res.c.ot x.1) es) := m2
    obtain ⟨t0, ht0⟩ := C.M.base
    obtain ⟨i0, R0, hi0, hR0⟩ := C.idx ht0
    have hs0 : Same R0 ⟨slashT E.res.c.sl E.res.c.X E.res.c.X, []⟩ := C.M.src _ (List.mem_of_getElem? hR0)
    have hkd0 : kd E.res i0 = some .base := by rw [kd, hR0]; rfl
    have hg0 : GI R0 (sitem E.res.c.sl x x) [] := by
      obtain ⟨φ, hφ⟩ := hX
      exact (hs0 _ _).2 ⟨φ, by rw [Slash.gsub_slashT, hφ], rfl⟩
    obtain ⟨b1, b2⟩ := make_evals (B := B) (ks := []) C.ord C.gr hR0 hg0 .nil (by simp)
    have b1 : Evals (fun f => (E.at f).make (some i0) (slashT E.res.c.sl x.1 x.1) []) (.node i0 (slashT E.res.c.sl x.1 x.1) []) := b1
    have b2 : Der B E.new (.node i0 (slashT E.res.c.sl x.1 x.1) []) := b2
    obtain ⟨I, g1, g2, g3⟩ := C.rso_ok hrm hin hrm hin hX m2 b2
    have hbk : back E.res E.pos (.node i (otherT E.res.c.ot x.1) es) = some (.node n x.1 ks) := by
      rw [back, hkd]; simp only [backL_of (C.done_back hd), Option.map_some, unw_other]
    have hpl : plug E.res E.pos (.node i0 (slashT E.res.c.sl x.1 x.1) []) (.node n x.1 ks) = some (.node n x.1 ks) := by
      rw [plug, hkd0]
    have hwt : ∀ (M : Type) [CommMonoid M] (v : W → M) (a : Nat → M), wt v (up E.res a) (.node i (otherT E.res.c.ot x.1) es) *
        wt v (up E.res a) (.node i0 (slashT E.res.c.sl x.1 x.1) []) = wt v a (.node n x.1 ks) := fun M _ v a => by
      simp only [wt, wtL, C.done_wt v a hd, up, hkd, hkd0, mul_one]
    have hH : Hit E.res.c.X E.pos (.node n x.1 ks) := .here _ _ _ (is_iff.2 hX)
    refine .inl ⟨.node _ _ _ hok (fun _ j _ h => absurd h (hpj j)) (fun h => absurd hH h) (fun h => absurd hH h), _, ?_, ⟨g2, rfl, ?_, ?_⟩, .inl ⟨hH, I, i, i0, es, [], x, rfl, hX, ⟨r, hrm, hin⟩, ⟨_, hbk, hpl⟩, hwt⟩⟩
    · refine hu.bind (hoth.bind (m1.bind (b1.bind g1 (F := fun f => match (E.at f).make (some i0) (slashT E.res.c.sl x.1 x.1) [] with
            | some b => (E.at f).guess x.1 [.node i (otherT E.res.c.ot x.1) es, b]
            | none => none) (fun f e => by simp only [e]) (fun f e => by simp only [e]))
          (F := fun f => match (E.at f).make (some i) (otherT E.res.c.ot x.1) es, (E.at f).make (some i0) (slashT E.res.c.sl x.1 x.1) [] with
            | some o, some b => (E.at f).guess x.1 [o, b]
            | _, _ => none) (fun f e => by simp only [e]) (fun f e => by simp only [e]; cases (E.at f).make (some i0) (slashT E.res.c.sl x.1 x.1) [] <;> rfl))
        (F := fun f => match other (E.at f).c noHeap x.1 with
            | none => none
            | some fx => match (E.at f).make (some i) fx es, (E.at f).make (some i0) (slashT E.res.c.sl x.1 x.1) [] with
              | some o, some b => (E.at f).guess x.1 [o, b]
              | _, _ => none) (fun f e => by simp only [e]) (fun f e => by simp only [e])) hfin0 (fun f e => ?_)
      have e : unifiesF (E.at f).f x.1 (E.at f).res.c.X noHeap = some true := e
      have hp : (E.at f).pos n = none := hp
      have hi : (E.at f).idx (.o n) = some i := hi
      have hi0 : (E.at f).idx .base = some i0 := hi0
      simp only [Cfg.step, hp, e, hi, hi0]
      rfl
    · intro M _ v a
      rw [wt, wtL, wtL, wtL, mul_one, hwt]
      simp [up, g3]
    · rw [back, g3]; simp only [back2, hbk, Option.bind_some, plug1, hpl]
  · rw [decide_eq_false hX] at hu
    have hH : ¬ Hit E.res.c.X E.pos (.node n (gsub θ r.head).1 ks) := by
      intro h
      cases h with
      | here _ _ _ h => exact hX (is_iff.1 h)
      | down _ _ _ j d h => exact hpj j h
    have hstep : ∀ f, unifiesF f (gsub θ r.head).1 E.res.c.X noHeap = some false → (E.at f).step n (gsub θ r.head).1 es = fin (E.at f) (.o n) (gsub θ r.head).1 es := fun f e => by
      have e : unifiesF (E.at f).f (gsub θ r.head).1 (E.at f).res.c.X noHeap = some false := e
      have hp : (E.at f).pos n = none := hp
      simp only [Cfg.step, hp, e]
      rfl
    rcases C.fin_ok (.inl rfl) hi hR hr hs hf' (C.done_der hd) (backL_of (C.done_back hd)) (fun M _ v a => C.done_wt v a hd) hH with ⟨⟨c1, c2⟩, e, h1, h2, h3⟩ | ⟨c1, h1⟩
    · refine .inl ⟨.node _ _ _ hok (fun h => absurd (is_iff.1 h) hX) (fun _ => c1) (fun _ h r' hr' => ?_), e, hu.bind h1 hfin0 hstep, h2, h3⟩
      rw [hr, Option.some.injEq] at hr'
      subst hr'
      exact c2 h
    · refine .inr ⟨fun h => c1 ?_, hu.fails h1 hfin0 hstep⟩
      cases h with
      | node _ _ _ a1 a2 a3 a4 => exact ⟨a3 hH, fun h => a4 hH h r hr⟩

/-- a rule with a position -/
theorem step_some {n j : Nat} {r : WRule W} (hr : rules[n]? = some r) (hp : E.pos n = some j) {θ : Nat → GTm} {ks es : List (DUnfold.Tree W)}
    (hf : List.Forall₂ (Fit B) (r.body.map (glit θ)) ks) (hD : ∀ d ∈ ks, Der B rules d)
    (hd : List.Forall₂ (Done B E rules) ks es) (hok : ∀ d ∈ ks, OK E.res.c rules E.pos E.res.nodes d) :
    (OK E.res.c rules E.pos E.res.nodes (.node n (gsub θ r.head).1 ks) ∧
      ∃ e, Evals (fun f => (E.at f).step n (gsub θ r.head).1 es) e ∧ Done B E rules (.node n (gsub θ r.head).1 ks) e) ∨
    (¬ OK E.res.c rules E.pos E.res.nodes (.node n (gsub θ r.head).1 ks) ∧ ∀ f, (E.at f).step n (gsub θ r.head).1 es = none) := by
  have hrm : r ∈ rules := List.mem_of_getElem? hr
  have hin : Inst r.head (gsub θ r.head) := ⟨θ, rfl⟩
  have hu := unif_evals (X := E.res.c.X) (gsub θ r.head)
  obtain ⟨out, h1, _, h2⟩ := C.M.has n r hr
  obtain ⟨q, hq, ⟨tss, hss⟩, hoo⟩ := h2 j hp
  obtain ⟨s1, _, s3, s4, s5⟩ := C.slot hr hp hq
  have hb := Unfold.split_body hq
  have hj : (r.body.take j).length = j := by
    rw [List.length_take]
    have := (List.getElem?_eq_some_iff.1 hq).1
    omega
  rw [hb, List.map_append, List.map_cons] at hf
  obtain ⟨k1, d, k2, rfl, f1, f0, f2⟩ := split2 hf
  obtain ⟨e1, e, e2, rfl, d1, d0, d2⟩ := split2 hd
  have hk1 : k1.length = j := by rw [← f1.length_eq, List.length_map, hj]
  have he1 : e1.length = j := by rw [← d1.length_eq, hk1]
  have hder := C.done_der hd
  have hDd := hD d (by simp)
  -- the child
  cases f0 with
  | bi t hB =>
    have := C.bi _ hB
    rw [inst_builtin s4 ⟨θ, rfl⟩, s3] at this
    simp at this
  | node m t ls =>
  obtain ⟨r', hrm', hin'⟩ : ∃ r' ∈ rules, Inst r'.head (gsub θ q) := by
    generalize hy : (gsub θ q).1 = y at hDd
    cases hDd with
    | node _ r' x b _ h1 h2 =>
      have : gsub θ q = x := Subtype.ext hy
      obtain ⟨φ, h, _⟩ := h2
      exact ⟨r', List.mem_of_getElem? h1, φ, by rw [h, this]⟩
  have hused : Used E.res.c (gsub θ q).1 := ⟨q, s1, is_iff.2 ⟨θ, rfl⟩⟩
  have hnexo : ¬ Exo E.res.c q := C.exo_node hrm' hin' s4 ⟨θ, rfl⟩
  have hpos : ∀ {j'}, E.pos n = some j' → j' = j := fun h => by rw [hp] at h; exact (Option.some.inj h).symm
  have hget : (k1 ++ DUnfold.Tree.node m (gsub θ q).1 ls :: k2)[j]? = some (.node m (gsub θ q).1 ls) := (mid hk1).1
  have hpf : ∀ f, (E.at f).pos n = some j := fun _ => hp
  rcases d0.2 with ⟨hH, i0, io, is, ko, lss, z, rfl, hz, ⟨rz, hrz, hinz⟩, ⟨dz, hbo, hps⟩, hw⟩ | ⟨hH, _, i0, io, ko, rfl, hbo, hw⟩ | ⟨_, hn, _⟩
  · -- an instance below
    obtain ⟨i, R, hi, hR⟩ := C.idx (h1 _ hss)
    obtain ⟨r2, j2, q2, hr2, hp2, hq2, hs⟩ : ∃ r' j' q', rules[n]? = some r' ∧ E.pos n = some j' ∧ r'.body[j']? = some (.sub q') ∧
      Same R ⟨slashT E.res.c.sl r'.head E.res.c.X, r'.body.take j' ++ .sub (slashT E.res.c.sl q' E.res.c.X) :: r'.body.drop (j' + 1)⟩ := C.M.src _ (List.mem_of_getElem? hR)
    rw [hr, Option.some.injEq] at hr2
    subst hr2
    have := hpos hp2
    subst this
    rw [hq, Option.some.injEq, Lit.sub.injEq] at hq2
    subst hq2
    have hkd : kd E.res i = some (.ss n) := by rw [kd, hR]; rfl
    obtain ⟨φ, hφ⟩ := hz
    let ψ : Nat → GTm := fun v => if v ∈ vars E.res.c.X then φ v else θ v
    have hψ : ∀ v ∈ rvars r, ψ v = θ v := fun v hv => if_neg (C.dis_X hrm v hv)
    have hψX : gsub ψ E.res.c.X = z := by rw [← hφ]; exact gsub_congr fun v hv => if_pos hv
    have hψh : gsub ψ r.head = gsub θ r.head := gsub_congr fun v hv => hψ v (by simp [rvars, hv])
    have hlit : ∀ l ∈ r.body, glit ψ l = glit θ l := fun l hl => glit_congr fun v hv => hψ v (by
      simp only [rvars, Finset.mem_union]; exact .inr (mem_bodyVars.2 ⟨l, hl, hv⟩))
    have hψq : gsub ψ q = gsub θ q := by
      have := hlit _ (List.mem_of_getElem? hq)
      simp only [glit, Lit.sub.injEq] at this
      exact Subtype.ext this
    have hg : GI R (sitem E.res.c.sl (gsub θ r.head) z) ((r.body.take j2).map (glit θ) ++ .sub (slashT E.res.c.sl (gsub θ q).1 z.1) :: (r.body.drop (j2 + 1)).map (glit θ)) := by
      refine (hs _ _).2 ⟨ψ, by rw [Slash.gsub_slashT, hψX, hψh], ?_⟩
      simp only [List.map_append, List.map_cons]
      congr 1
      · exact List.map_congr_left fun l hl => hlit l (List.mem_of_mem_take hl)
      · congr 1
        · simp only [glit, Slash.gsub_slashT, hψX, hψq]; rfl
        · exact List.map_congr_left fun l hl => hlit l (List.mem_of_mem_drop hl)
    have hDe := d0.1.der
    have hDo : Der B E.new (.node io (otherT E.res.c.ot z.1) ko) ∧ Der B E.new (.node is (slashT E.res.c.sl (gsub θ q).1 z.1) lss) := by
      generalize (gsub θ q).1 = y at hDe
      cases hDe with
      | node _ _ _ _ _ _ _ _ h => exact ⟨h _ (by simp), h _ (by simp)⟩
    obtain ⟨m1, m2⟩ := make_evals (ks := e1 ++ .node is (slashT E.res.c.sl (gsub θ q).1 z.1) lss :: e2) C.ord C.gr hR hg
      (join2 (C.fits_done f1 d1) (.node ..) (C.fits_done f2 d2)) (fun d hd => by
        simp only [List.mem_append, List.mem_cons] at hd
        rcases hd with hd | rfl | hd
        · exact C.done_der d1 d hd
        · exact hDo.2
        · exact C.done_der d2 d hd)
    set x := gsub θ r.head with hx
    set es' := e1 ++ DUnfold.Tree.node is (slashT E.res.c.sl (gsub θ q).1 z.1) lss :: e2 with hes'
    have m1 : Evals (fun f => (E.at f).make (some i) (slashT E.res.c.sl x.1 z.1) es') (.node i (slashT E.res.c.sl x.1 z.1) es') := m1
    have m2 : Der B E.new (.node i (slashT E.res.c.sl x.1 z.1) es') := m2
    have hz : Inst E.res.c.X z := ⟨φ, hφ⟩
    obtain ⟨I, g1, g2, g3⟩ := C.rso_ok hrm hin hrz hinz hz hDo.1 m2
    have hHn : Hit E.res.c.X E.pos (.node n x.1 (k1 ++ .node m (gsub θ q).1 ls :: k2)) := .down _ _ _ _ _ hp hget hH
    have hpl : plug E.res E.pos (.node i (slashT E.res.c.sl x.1 z.1) es') dz = some (.node n x.1 (k1 ++ .node m (gsub θ q).1 ls :: k2)) := by
      have := plugAt_of (C.done_back d1) hps (C.done_back d2)
      rw [he1] at this
      rw [plug, hkd]
      simp only [hp, this, hes', Option.map_some, numer_slash]
    have hwt : ∀ (M : Type) [CommMonoid M] (v : W → M) (a : Nat → M), wt v (up E.res a) (.node io (otherT E.res.c.ot z.1) ko) *
        wt v (up E.res a) (.node i (slashT E.res.c.sl x.1 z.1) es') = wt v a (.node n x.1 (k1 ++ .node m (gsub θ q).1 ls :: k2)) := fun M _ v a => by
      have hup : up E.res a i = a n := by rw [up, hkd]
      have w1 : wt v (up E.res a) (.node i (slashT E.res.c.sl x.1 z.1) es') =
          a n * (wtL v a k1 * (wt v (up E.res a) (.node is (slashT E.res.c.sl (gsub θ q).1 z.1) lss) * wtL v a k2)) := by
        rw [wt, hup, hes', wtL_append, wtL, C.done_wt v a d1, C.done_wt v a d2]
      have w2 : wt v a (.node n x.1 (k1 ++ .node m (gsub θ q).1 ls :: k2)) = a n * (wtL v a k1 * (wt v a (.node m (gsub θ q).1 ls) * wtL v a k2)) := by
        rw [wt, wtL_append, wtL]
      rw [w1, w2, ← hw M v a]
      generalize wt v (up E.res a) (DUnfold.Tree.node io (otherT E.res.c.ot z.1) ko) = u1
      generalize wt v (up E.res a) (DUnfold.Tree.node is (slashT E.res.c.sl (gsub θ q).1 z.1) lss) = u2
      ac_rfl
    refine .inl ⟨.node _ _ _ hok (fun _ j' d' h h' => ?_) (fun h => absurd hHn h) (fun h => absurd hHn h), _, ?_, ⟨g2, rfl, ?_, ?_⟩,
      .inl ⟨hHn, I, io, i, ko, es', z, rfl, hz, ⟨rz, hrz, hinz⟩, ⟨dz, hbo, hpl⟩, hwt⟩⟩
    · have := hpos h
      subst this
      rw [hget, Option.some.injEq] at h'
      rw [← h']; exact hH
    · refine m1.bind g1 (fun f e => ?_) (fun f e => ?_)
      · have hi : (E.at f).idx (.ss n) = some i := hi
        have hgx : (E.at f).getx (.node io (otherT E.res.c.ot z.1) ko) = some z.1 := by simp [Cfg.getx, Cfg.frozen, Cfg.at, hfn, otherT]
        have e : (E.at f).make (some i) (slashT (E.at f).res.c.sl x.1 z.1) es' = none := e
        simp only [Cfg.step, hpf, (mid he1).1, (mid he1).2.1, (mid he1).2.2, hgx, hi, ← hes', e]
      · have hi : (E.at f).idx (.ss n) = some i := hi
        have hgx : (E.at f).getx (.node io (otherT E.res.c.ot z.1) ko) = some z.1 := by simp [Cfg.getx, Cfg.frozen, Cfg.at, hfn, otherT]
        have e : (E.at f).make (some i) (slashT (E.at f).res.c.sl x.1 z.1) es' = some (.node i (slashT E.res.c.sl x.1 z.1) es') := e
        simp only [Cfg.step, hpf, (mid he1).1, (mid he1).2.1, (mid he1).2.2, hgx, hi, ← hes', e]
    · intro M _ v a
      rw [wt, wtL, wtL, wtL, mul_one, hwt]
      simp [up, g3]
    · rw [back, g3]; simp only [back2, hbo, Option.bind_some, plug1, hpl]
  · -- none below
    have hyX : ¬ Inst E.res.c.X (gsub θ q) := fun h => hH (.here _ _ _ (is_iff.2 h))
    have hmeet : ¬ ∃ z, Inst E.res.c.X z ∧ Inst q z := fun h => hyX (s5 h _ ⟨θ, rfl⟩)
    have hfrz : ∀ f, (E.at f).frozen (.node io (otherT E.res.c.ot (gsub θ q).1) ko) = true := fun f => by simp [Cfg.frozen, Cfg.at, hfn, otherT]
    obtain ⟨too, hoo⟩ := hoo hmeet
    obtain ⟨i, R, hi, hR⟩ := C.idx (h1 _ hoo)
    obtain ⟨r2, j2, q2, hr2, hp2, hq2, _, hs⟩ : ∃ r' j' q', rules[n]? = some r' ∧ E.pos n = some j' ∧ r'.body[j']? = some (.sub q') ∧ (¬ ∃ z, Inst E.res.c.X z ∧ Inst q' z) ∧
      Same R ⟨wrap E.res.c r'.head, r'.body.take j' ++ .sub (if Exo E.res.c q' then q' else otherT E.res.c.ot q') :: r'.body.drop (j' + 1)⟩ := C.M.src _ (List.mem_of_getElem? hR)
    rw [hr, Option.some.injEq] at hr2
    subst hr2
    have := hpos hp2
    subst this
    rw [hq, Option.some.injEq, Lit.sub.injEq] at hq2
    subst hq2
    rw [if_neg hnexo] at hs
    set o : DUnfold.Tree W := .node io (otherT E.res.c.ot (gsub θ q).1) ko with ho
    have hDe := d0.1.der
    have hDo : Der B E.new o := by
      rw [ho]
      rw [ho] at hDe
      generalize (gsub θ q).1 = y at hDe
      cases hDe with
      | node _ _ _ _ _ _ _ _ h => exact h _ (by simp)
    have hnone : ∀ f, unifiesF f (gsub θ r.head).1 E.res.c.X noHeap = none → (E.at f).step n (gsub θ r.head).1 (e1 ++ .node i0 (gsub θ q).1 [o] :: e2) = none := fun f e => by
      have e : unifiesF (E.at f).f (gsub θ r.head).1 (E.at f).res.c.X noHeap = none := e
      simp only [Cfg.step, hpf, (mid he1).1, hfrz, e]
      simp
    by_cases hX : Inst E.res.c.X (gsub θ r.head)
    · rw [decide_eq_true hX] at hu
      refine .inr ⟨fun h => ?_, hu.fails (k := fun _ => none) (fun _ => rfl) hnone (fun f e => ?_)⟩
      · cases h with
        | node _ _ _ _ a2 _ _ => exact hH (a2 (is_iff.2 hX) _ _ hp hget)
      · have e : unifiesF (E.at f).f (gsub θ r.head).1 (E.at f).res.c.X noHeap = some true := e
        simp only [Cfg.step, hpf, (mid he1).1, hfrz, e]
        simp
    · rw [decide_eq_false hX] at hu
      have hHn : ¬ Hit E.res.c.X E.pos (.node n (gsub θ r.head).1 (k1 ++ .node m (gsub θ q).1 ls :: k2)) := by
        intro h
        cases h with
        | here _ _ _ h => exact hX (is_iff.1 h)
        | down _ _ _ j' d' h h' h'' =>
          have := hpos h
          subst this
          rw [hget, Option.some.injEq] at h'
          rw [← h'] at h''
          exact hH h''
      have hstep : ∀ f, unifiesF f (gsub θ r.head).1 E.res.c.X noHeap = some false →
          (E.at f).step n (gsub θ r.head).1 (e1 ++ .node i0 (gsub θ q).1 [o] :: e2) = fin (E.at f) (.oo n) (gsub θ r.head).1 (e1 ++ o :: e2) := fun f e => by
        have e : unifiesF (E.at f).f (gsub θ r.head).1 (E.at f).res.c.X noHeap = some false := e
        simp only [Cfg.step, hpf, (mid he1).1, (mid he1).2.1, (mid he1).2.2, hfrz, e]
        rfl
      have hf' : List.Forall₂ (Fit B) ((r.body.take j2 ++ .sub (otherT E.res.c.ot q) :: r.body.drop (j2 + 1)).map (glit θ)) (e1 ++ o :: e2) := by
        rw [List.map_append, List.map_cons]
        refine join2 (C.fits_done f1 d1) ?_ (C.fits_done f2 d2)
        simp only [glit, Slash.gsub_otherT]
        exact .node ..
      rcases C.fin_ok (.inr rfl) hi hR hr hs hf' (fun d hd => by
          simp only [List.mem_append, List.mem_cons] at hd
          rcases hd with hd | rfl | hd
          · exact C.done_der d1 d hd
          · exact hDo
          · exact C.done_der d2 d hd) (backL_of (join2 (C.done_back d1) hbo (C.done_back d2)))
          (fun M _ v a => by rw [wtL_append, wtL_append, wtL, wtL, C.done_wt v a d1, C.done_wt v a d2, hw M v a]) hHn with ⟨⟨c1, c2⟩, e, h1, h2, h3⟩ | ⟨c1, h1⟩
      · refine .inl ⟨.node _ _ _ hok (fun h => absurd (is_iff.1 h) hX) (fun _ => c1) (fun _ h r' hr' => ?_), e, hu.bind h1 hnone hstep, h2, h3⟩
        rw [hr, Option.some.injEq] at hr'
        subst hr'
        exact c2 h
      · refine .inr ⟨fun h => c1 ?_, hu.fails h1 hnone hstep⟩
        cases h with
        | node _ _ _ a1 a2 a3 a4 => exact ⟨a3 hHn, fun h => a4 hHn h r hr⟩
  · exact absurd hused hn

/-- the children -/
theorem list {ks : List (DUnfold.Tree W)} (ih : ∀ d ∈ ks, (OK E.res.c rules E.pos E.res.nodes d ∧ ∃ e, Evals (fun f => (E.at f).tr d) e ∧ Done B E rules d e) ∨
      (¬ OK E.res.c rules E.pos E.res.nodes d ∧ ∀ f, (E.at f).tr d = none)) :
    ((∀ d ∈ ks, OK E.res.c rules E.pos E.res.nodes d) ∧ ∃ es, Evals (fun f => (E.at f).trL ks) es ∧ List.Forall₂ (Done B E rules) ks es) ∨
    ((¬ ∀ d ∈ ks, OK E.res.c rules E.pos E.res.nodes d) ∧ ∀ f, (E.at f).trL ks = none) := by
  induction ks with
  | nil => exact .inl ⟨by simp, [], Evals.pure _, .nil⟩
  | cons d ks ihk =>
    rcases ih d (by simp) with ⟨h1, e, h2, h3⟩ | ⟨h1, h2⟩
    · rcases ihk fun d hd => ih d (List.mem_cons_of_mem _ hd) with ⟨g1, es, g2, g3⟩ | ⟨g1, g2⟩
      · refine .inl ⟨by simpa using ⟨h1, g1⟩, e :: es, ?_, .cons h3 g3⟩
        refine h2.bind (k := fun f => match (E.at f).trL ks with | some es => some (e :: es) | none => none)
          (g2.bind (Evals.pure (e :: es)) (fun f e => by simp only [e]) (fun f e => by simp only [e])) (fun f e => by simp only [Cfg.trL, e]) (fun f e => ?_)
        simp only [Cfg.trL, e]
        cases (E.at f).trL ks <;> rfl
      · refine .inr ⟨fun h => g1 fun d hd => h d (List.mem_cons_of_mem _ hd), fun f => ?_⟩
        simp only [Cfg.trL, g2 f]
        cases (E.at f).tr d <;> rfl
    · refine .inr ⟨fun h => h1 (h d (by simp)), fun f => ?_⟩
      simp only [Cfg.trL, h2 f]

/-- the mapping is defined on the derivations that satisfy `OK`, and on no other -/
theorem main {d : DUnfold.Tree W} (hd : Der B rules d) : (OK E.res.c rules E.pos E.res.nodes d ∧ ∃ e, Evals (fun f => (E.at f).tr d) e ∧ Done B E rules d e) ∨
      (¬ OK E.res.c rules E.pos E.res.nodes d ∧ ∀ f, (E.at f).tr d = none) := by
  induction hd with
  | const k => exact .inl ⟨.const k, .const k, Evals.pure _, ⟨.const k, rfl, fun _ _ _ _ => rfl, rfl⟩, rfl⟩
  | bi t hb => exact .inl ⟨.bi t, .bi t, Evals.pure _, ⟨.bi t hb, rfl, fun _ _ _ _ => rfl, rfl⟩, rfl⟩
  | node n r x b ks hr hg hf hD ih =>
    obtain ⟨θ, rfl, rfl⟩ := hg
    rcases C.list ih with ⟨g1, es, g2, g3⟩ | ⟨g1, g2⟩
    · have hnone : ∀ f, (E.at f).trL ks = none → (E.at f).tr (.node n (gsub θ r.head).1 ks) = none := fun f e => by simp only [Cfg.tr, e]
      have hstep : ∀ f, (E.at f).trL ks = some es → (E.at f).tr (.node n (gsub θ r.head).1 ks) = (E.at f).step n (gsub θ r.head).1 es := fun f e => by simp only [Cfg.tr, e]
      have := (match hp : E.pos n with
        | none => C.step_none hr hp hf g3 g1
        | some j => C.step_some hr hp hf hD g3 g1)
      rcases this with ⟨a1, e, a2, a3⟩ | ⟨a1, a2⟩
      · exact .inl ⟨a1, e, g2.bind a2 hnone hstep, a3⟩
      · exact .inr ⟨a1, g2.fails a2 hnone hstep⟩
    · refine .inr ⟨fun h => g1 ?_, fun f => by simp only [Cfg.tr, g2 f]⟩
      cases h with
      | node _ _ _ a1 _ _ _ => exact a1

end Ctx

variable {f0 : Nat} {lam : Const}

theorem Ctx.of (S : Setup sig fv cv rules inputs E.pos k) (e : Slash.slash false f0 sig fv cv lam rules inputs E.pos X0 k = some E.res)
    (hI : ∀ i ∈ inputs, hfn i ≠ some E.res.c.sl ∧ hfn i ≠ some E.res.c.ot) (ho : ∀ l, (E.ord l).Perm l) (hg : ∀ t, B t → vars t = ∅) (hb : ∀ t, B t → isBuiltin sig t = true) :
    Ctx B E sig fv cv rules inputs X0 k :=
  have h := Slash.slash_run S e hI
  ⟨S, made S e, h.1, h.2.1, ho, hg, hb⟩

/-! ### C83 -/

/-- **C83** (the result is a derivation).  If the mapping succeeds on a derivation of the program, then the result is a derivation of the slashed program, of the same
item; it has the same constants, and the rules made from the rules of the old derivation, each as often: every product over them is the same. -/
theorem C83_valid (S : Setup sig fv cv rules inputs E.pos k) (e : Slash.slash false f0 sig fv cv lam rules inputs E.pos X0 k = some E.res)
    (hI : ∀ i ∈ inputs, hfn i ≠ some E.res.c.sl ∧ hfn i ≠ some E.res.c.ot) (ho : ∀ l, (E.ord l).Perm l) (hg : ∀ t, B t → vars t = ∅) (hb : ∀ t, B t → isBuiltin sig t = true)
    {d d' : DUnfold.Tree W} (hd : Der B rules d) (ht : E.tr d = some d') :
    Der B (E.res.rules.map Prod.fst) d' ∧ treeTm E.code d' = treeTm E.code d ∧
      ∀ (M : Type) [CommMonoid M] (v : W → M) (a : Nat → M), wt v (up E.res a) d' = wt v a d := by
  rcases (Ctx.of S e hI ho hg hb).main hd with ⟨_, d'', h1, h2, _⟩ | ⟨_, h1⟩
  · have : E.tr d = some d'' := (h1.2 E.f).resolve_left (by show E.tr d ≠ none; rw [ht]; simp)
    rw [ht, Option.some.injEq] at this
    subst this
    exact ⟨h2.der, h2.item, h2.wt⟩
  · have : E.tr d = none := h1 E.f
    rw [ht] at this
    simp at this

/-- **C83** (the mapping can be undone): the old derivation can be read off the new one. -/
theorem C83_round_trip (S : Setup sig fv cv rules inputs E.pos k) (e : Slash.slash false f0 sig fv cv lam rules inputs E.pos X0 k = some E.res)
    (hI : ∀ i ∈ inputs, hfn i ≠ some E.res.c.sl ∧ hfn i ≠ some E.res.c.ot) (ho : ∀ l, (E.ord l).Perm l) (hg : ∀ t, B t → vars t = ∅) (hb : ∀ t, B t → isBuiltin sig t = true)
    {d d' : DUnfold.Tree W} (hd : Der B rules d) (ht : E.tr d = some d') : back E.res E.pos d' = some d := by
  rcases (Ctx.of S e hI ho hg hb).main hd with ⟨_, d'', h1, h2, _⟩ | ⟨_, h1⟩
  · have : E.tr d = some d'' := (h1.2 E.f).resolve_left (by show E.tr d ≠ none; rw [ht]; simp)
    rw [ht, Option.some.injEq] at this
    subst this
    exact h2.back
  · have : E.tr d = none := h1 E.f
    rw [ht] at this
    simp at this

/-- **C83** (injective): different derivations have different images. -/
theorem C83_injective (S : Setup sig fv cv rules inputs E.pos k) (e : Slash.slash false f0 sig fv cv lam rules inputs E.pos X0 k = some E.res)
    (hI : ∀ i ∈ inputs, hfn i ≠ some E.res.c.sl ∧ hfn i ≠ some E.res.c.ot) (ho : ∀ l, (E.ord l).Perm l) (hg : ∀ t, B t → vars t = ∅) (hb : ∀ t, B t → isBuiltin sig t = true)
    {d1 d2 d' : DUnfold.Tree W} (h1 : Der B rules d1) (h2 : Der B rules d2) (t1 : E.tr d1 = some d') (t2 : E.tr d2 = some d') : d1 = d2 := by
  have := C83_round_trip S e hI ho hg hb h1 t1
  rw [C83_round_trip S e hI ho hg hb h2 t2, Option.some.injEq] at this
  exact this.symm

/-- **C83** (where it is defined): the mapping succeeds on the derivations that satisfy `OK`, given enough fuel, always with the same result; on the others it fails. -/
theorem C83_defined (S : Setup sig fv cv rules inputs E.pos k) (e : Slash.slash false f0 sig fv cv lam rules inputs E.pos X0 k = some E.res)
    (hI : ∀ i ∈ inputs, hfn i ≠ some E.res.c.sl ∧ hfn i ≠ some E.res.c.ot) (ho : ∀ l, (E.ord l).Perm l) (hg : ∀ t, B t → vars t = ∅) (hb : ∀ t, B t → isBuiltin sig t = true)
    {d : DUnfold.Tree W} (hd : Der B rules d) :
    (OK E.res.c rules E.pos E.res.nodes d → ∃ d', (∃ n, ∀ f ≥ n, ({ E with f := f } : Cfg W).tr d = some d') ∧
      ∀ f, ({ E with f := f } : Cfg W).tr d = none ∨ ({ E with f := f } : Cfg W).tr d = some d') ∧
    (¬ OK E.res.c rules E.pos E.res.nodes d → ∀ f, ({ E with f := f } : Cfg W).tr d = none) := by
  rcases (Ctx.of S e hI ho hg hb).main hd with ⟨h0, d', h1, _⟩ | ⟨h0, h1⟩
  · exact ⟨fun _ => ⟨d', h1.1, h1.2⟩, fun h => absurd h0 h⟩
  · exact ⟨fun h => absurd h h0, fun _ => h1⟩

end

/-! ### Examples -/

section demo
open Unfold (at')
open Slash (nmSig)

/-- constants -/
abbrev ca (s : String) : Tm := .con (.str s)

/-- `f(X) += e(X,Y) * f(Y).  f("c") += true.  h(X) += k(X).  k("a") += true.  goal += f(X) * true * h(Y).  e("a","b") += true.  e("b","c") += true.` -/
def demoP : List (WRule TV) :=
  [⟨at' "f" [.var 0], [.sub (at' "e" [.var 0, .var 1]), .sub (at' "f" [.var 1])]⟩,
   ⟨at' "f" [ca "c"], [.val .t]⟩,
   ⟨at' "h" [.var 2], [.sub (at' "k" [.var 2])]⟩,
   ⟨at' "k" [ca "a"], [.val .t]⟩,
   ⟨at' "goal" [], [.sub (at' "f" [.var 3]), .val .t, .sub (at' "h" [.var 4])]⟩,
   ⟨at' "e" [ca "a", ca "b"], [.val .t]⟩,
   ⟨at' "e" [ca "b", ca "c"], [.val .t]⟩]

/-- the last subgoals of the first and of the third rule -/
def demoPos : Nat → Option Nat := fun i => if i = 0 then some 1 else if i = 2 then some 0 else none

/-- a derivation of `goal` -/
def demoDer : DUnfold.Tree TV := .node 4 (at' "goal" [])
  [.node 0 (at' "f" [ca "a"]) [.node 5 (at' "e" [ca "a", ca "b"]) [.const .t],
      .node 0 (at' "f" [ca "b"]) [.node 6 (at' "e" [ca "b", ca "c"]) [.const .t], .node 1 (at' "f" [ca "c"]) [.const .t]]],
   .const .t, .node 2 (at' "h" [ca "a"]) [.node 3 (at' "k" [ca "a"]) [.const .t]]]

def demoRes (P : List (WRule TV)) (pos : Nat → Option Nat) (x : Tm) : Option (Res TV) :=
  Slash.slash false 40 nmSig (fun i => 2 * i) (fun i => 2 * i + 1) (.str "lam") P [] pos x 10

def demoE (pos : Nat → Option Nat) (res : Res TV) : Cfg TV := ⟨res, pos, fun v => match v with | .t => .str "true" | .f => .str "false", id, 40⟩

/-- the mapping, after slashing `x` -/
def demoTr (P : List (WRule TV)) (pos : Nat → Option Nat) (x : Tm) (d : DUnfold.Tree TV) : Option (DUnfold.Tree TV) :=
  (demoRes P pos x).bind fun res => (demoE pos res).tr d

theorem demo_setup : Setup nmSig (fun i => 2 * i) (fun i => 2 * i + 1) demoP [] demoPos 10 where
  ifv a b h := by simpa using h
  icv a b h := by simpa using h
  sep i j := by omega
  plain := ⟨by decide, by
    intro r hr
    simp only [demoP, List.mem_cons, List.not_mem_nil, or_false] at hr
    rcases hr with rfl | rfl | rfl | rfl | rfl | rfl | rfl <;> refine ⟨⟨_, _, rfl⟩, fun t ht => ?_⟩ <;>
      simp only [List.mem_cons, Lit.sub.injEq, reduceCtorEq, List.not_mem_nil, or_false, false_or] at ht
    · rcases ht with rfl | rfl <;> exact ⟨_, _, rfl⟩
    · subst ht; exact ⟨_, _, rfl⟩
    · rcases ht with rfl | rfl <;> exact ⟨_, _, rfl⟩⟩
  named i hi := by simp at hi
  terms := by
    have : Prune.terms nmSig demoP [] = [at' "f" [.var 0], at' "e" [.var 0, .var 1], at' "f" [.var 1], at' "f" [ca "c"], at' "h" [.var 2], at' "k" [.var 2],
      at' "k" [ca "a"], at' "goal" [], at' "f" [.var 3], at' "h" [.var 4], at' "e" [ca "a", ca "b"], at' "e" [ca "b", ca "c"]] := by decide
    rw [this]
    intro t ht
    simp only [List.mem_cons, List.not_mem_nil, or_false] at ht
    rcases ht with rfl | rfl | rfl | rfl | rfl | rfl | rfl | rfl | rfl | rfl | rfl | rfl <;>
      exact .app _ _ (fun t ht => by
        simp only [List.mem_cons, List.not_mem_nil, or_false] at ht <;> rcases ht with rfl | rfl <;> first | exact .var _ | exact .con _)
  oldR := by
    have : ∀ r ∈ demoP, ∀ n ∈ rvars r, n ≤ 4 := by decide
    intro r hr n hn j hj
    have := this r hr n hn
    omega
  oldI := by simp
  apart := by simp
  heads := by simp
  unif := by
    intro r hr q hq y h1 h2
    have : usefulList demoPos demoP 0 = [at' "f" [.var 1], at' "k" [.var 2]] := by decide
    rw [this] at hq
    have h := (Slash.inst_sig (t := r.head) (by
      simp only [demoP, List.mem_cons, List.not_mem_nil, or_false] at hr
      rcases hr with rfl | rfl | rfl | rfl | rfl | rfl | rfl <;> exact ⟨_, _, rfl⟩) h1).symm.trans (Slash.inst_sig (t := q) (by
      simp only [List.mem_cons, List.not_mem_nil, or_false] at hq
      rcases hq with rfl | rfl <;> exact ⟨_, _, rfl⟩) h2)
    simp only [List.mem_cons, List.not_mem_nil, or_false] at hq
    simp only [demoP, List.mem_cons, List.not_mem_nil, or_false] at hr
    rcases hr with rfl | rfl | rfl | rfl | rfl | rfl | rfl <;> rcases hq with rfl | rfl <;> first
      | exact absurd h (by decide)
      | exact ⟨fun _ => .var 0, rfl⟩
      | exact ⟨fun _ => ca "c", rfl⟩
      | exact ⟨fun _ => ca "a", rfl⟩

theorem demo_der : Der (fun _ => False) demoP demoDer := by
  have c : ∀ s, (⟨ca s, rfl⟩ : GTm).1 = ca s := fun _ => rfl
  let g (s : String) : GTm := ⟨ca s, rfl⟩
  have leaf : ∀ (n : Nat) (r : WRule TV), demoP[n]? = some r → r.body = [.val .t] → ∀ h : vars r.head = ∅, Der (fun _ => False) demoP (.node n r.head [.const .t]) := fun n r hr hb h =>
    .node n r ⟨r.head, h⟩ [.val .t] _ hr ⟨fun _ => g "a", congrArg Subtype.val (inst_ground (x := ⟨r.head, h⟩) (z := gsub (fun _ => g "a") r.head) |>.1 ⟨_, rfl⟩) |> Subtype.ext, by rw [hb]; rfl⟩ (.cons (.val _) .nil) (fun d hd => by
      rw [List.mem_singleton] at hd; subst hd; exact .const _)
  have l1 := leaf 1 _ rfl rfl (by decide)
  have l3 := leaf 3 _ rfl rfl (by decide)
  have l5 := leaf 5 _ rfl rfl (by decide)
  have l6 := leaf 6 _ rfl rfl (by decide)
  have fb := Der.node 0 _ _ _ _ (rfl : demoP[0]? = some _) ⟨fun n => if n = 0 then g "b" else g "c", rfl, rfl⟩ (.cons (.node ..) (.cons (.node ..) .nil))
    (fun d hd => by simp only [List.mem_cons, List.not_mem_nil, or_false] at hd; rcases hd with rfl | rfl; exact l6; exact l1)
  have fa := Der.node 0 _ _ _ _ (rfl : demoP[0]? = some _) ⟨fun n => if n = 0 then g "a" else g "b", rfl, rfl⟩ (.cons (.node ..) (.cons (.node ..) .nil))
    (fun d hd => by simp only [List.mem_cons, List.not_mem_nil, or_false] at hd; rcases hd with rfl | rfl; exact l5; exact fb)
  have h := Der.node 2 _ _ _ _ (rfl : demoP[2]? = some _) ⟨fun _ => g "a", rfl, rfl⟩ (.cons (.node ..) .nil)
    (fun d hd => by rw [List.mem_singleton] at hd; subst hd; exact l3)
  exact Der.node 4 _ _ _ _ (rfl : demoP[4]? = some _) ⟨fun _ => g "a", rfl, rfl⟩ (.cons (.node ..) (.cons (.val _) (.cons (.node ..) .nil)))
    (fun d hd => by
      simp only [List.mem_cons, List.not_mem_nil, or_false] at hd
      rcases hd with rfl | rfl | rfl
      · exact fa
      · exact .const _
      · exact h)

/-- the image of the derivation: `f("a")` is made of `$other(f("c"))` and a spine from `f("a")/f("c")` to `f("c")/f("c")`; `h("a")` of `$other(k("a"))` -/
theorem demo_tr : (demoTr demoP demoPos (at' "f" [.var 8]) demoDer).any (DUnfold.eqT (.node 6 (at' "goal" [])
  [.node 13 (at' "f" [ca "a"]) [.node 2 (at' "$other" [at' "f" [ca "c"]]) [.const .t],
      .node 1 (at' "/" [at' "f" [ca "a"], at' "f" [ca "c"]]) [.node 7 (at' "e" [ca "a", ca "b"]) [.const .t],
        .node 1 (at' "/" [at' "f" [ca "b"], at' "f" [ca "c"]]) [.node 8 (at' "e" [ca "b", ca "c"]) [.const .t],
          .node 0 (at' "/" [at' "f" [ca "c"], at' "f" [ca "c"]]) []]]],
   .const .t, .node 4 (at' "h" [ca "a"]) [.node 5 (at' "$other" [at' "k" [ca "a"]]) [.const .t]]])) = true := by decide +kernel

/-- the hypotheses of C83 hold of it -/
example : ∃ res d', demoRes demoP demoPos (at' "f" [.var 8]) = some res ∧ (demoE demoPos res).tr demoDer = some d' ∧
    Der (fun _ => False) (res.rules.map Prod.fst) d' ∧ back res demoPos d' = some demoDer ∧ OK res.c demoP demoPos res.nodes demoDer := by
  have h := demo_tr
  unfold demoTr at h
  cases e : demoRes demoP demoPos (at' "f" [.var 8]) with
  | none => rw [e] at h; simp at h
  | some res =>
    rw [e, Option.bind_some] at h
    cases e' : (demoE demoPos res).tr demoDer with
    | none => rw [e'] at h; simp at h
    | some d' =>
      have V := C83_valid (B := fun _ => False) (E := demoE demoPos res) demo_setup e (by simp) (fun _ => .refl _) (by simp) (by simp) demo_der e'
      refine ⟨res, d', rfl, e', V.1, C83_round_trip (E := demoE demoPos res) demo_setup e (by simp) (fun _ => .refl _) (by simp) (by simp) demo_der e', ?_⟩
      by_contra hok
      have := (C83_defined (B := fun _ => False) (E := demoE demoPos res) demo_setup e (by simp) (fun _ => .refl _) (by simp) (by simp) demo_der).2 hok 40
      rw [show ({ demoE demoPos res with f := 40 } : Cfg TV) = demoE demoPos res from rfl, e'] at this
      simp at this

/-- `f(X) += k(X).  k("a") += true.`, slashing `f(X)`: the derivation of `f("a")` has no instance of `f(X)` below; `D_oo` is called with two arguments (217) -/
example : demoTr [⟨at' "f" [.var 0], [.sub (at' "k" [.var 0])]⟩, ⟨at' "k" [ca "a"], [.val .t]⟩] (fun i => if i = 0 then some 0 else none) (at' "f" [.var 8])
    (.node 0 (at' "f" [ca "a"]) [.node 1 (at' "k" [ca "a"]) [.const .t]]) |>.isNone := by decide +kernel

/-- and with `g` for `f` it is mapped -/
example : demoTr [⟨at' "f" [.var 0], [.sub (at' "k" [.var 0])]⟩, ⟨at' "k" [ca "a"], [.val .t]⟩] (fun i => if i = 0 then some 0 else none) (at' "g" [.var 8])
    (.node 0 (at' "f" [ca "a"]) [.node 1 (at' "k" [ca "a"]) [.const .t]]) |>.isSome := by decide +kernel

/-- `g += f("b").  f(X) += true.`, slashing `f("a")`: the rule for `f("b")` without slashed item has `$not_matches` in its body, the derivation does not (161, 178) -/
example : demoTr [⟨at' "g" [], [.sub (at' "f" [ca "b"])]⟩, ⟨at' "f" [.var 0], [.val .t]⟩] (fun i => if i = 0 then some 0 else none) (at' "f" [ca "a"])
    (.node 0 (at' "g" []) [.node 1 (at' "f" [ca "b"]) [.const .t]]) |>.isNone := by decide +kernel

/-- `f(X) += true.`, slashing `f("a")`: the rule is for `$other(f(X))`, the item `f("b")` is not kept apart (179) -/
example : demoTr [⟨at' "f" [.var 0], [.val .t]⟩] (fun _ => none) (at' "f" [ca "a"]) (.node 0 (at' "f" [ca "b"]) [.const .t]) |>.isNone := by decide +kernel

/-- in each of these the slashed program is made -/
example : (demoRes [⟨at' "f" [.var 0], [.sub (at' "k" [.var 0])]⟩, ⟨at' "k" [ca "a"], [.val .t]⟩] (fun i => if i = 0 then some 0 else none) (at' "f" [.var 8])).isSome ∧
    (demoRes [⟨at' "g" [], [.sub (at' "f" [ca "b"])]⟩, ⟨at' "f" [.var 0], [.val .t]⟩] (fun i => if i = 0 then some 0 else none) (at' "f" [ca "a"])).isSome ∧
    (demoRes [⟨at' "f" [.var 0], [.val .t]⟩] (fun _ => none) (at' "f" [ca "a"])).isSome := by decide +kernel

end demo

end DSlash
end Verif
