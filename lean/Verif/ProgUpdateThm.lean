/-
Property C19: updating a program with constant rules.
-/
import Verif.ProgUpdate
import Verif.TermOpsThm
import Mathlib.Algebra.Ring.Nat

set_option linter.unusedSectionVars false
set_option linter.unusedSimpArgs false

namespace Verif
open Tm

/-! ### Specification -/
namespace WRule
variable {K : Type} [CommSemiring K] [DecidableEq K]

/-- value of a rule whose body consists of constants only -/
def weight (r : WRule K) : Option K := if subs r.body = [] then some (vals r.body).prod else none

open Classical in
/-- what the rule contributes to the constant weight of `h` (heads are compared up to renaming) -/
noncomputable def contrib (h : Tm) (r : WRule K) : K := if Variant r.head h then r.weight.getD 0 else 0

/-- constant weight of `h` in a program -/
noncomputable def total (h : Tm) (rules : List (WRule K)) : K := (rules.map (contrib h)).sum

/-! ### Lemmas -/

theorem vals_subs_map (xs : List Tm) : vals (xs.map (Lit.sub : Tm → Lit K)) = [] := by
  simp [vals, List.filterMap_eq_nil_iff]

theorem subs_subs_map (xs : List Tm) : subs (xs.map (Lit.sub : Tm → Lit K)) = xs := by
  simp only [subs, List.filterMap_map]
  exact List.filterMap_some

@[simp] theorem vals_cons_val (k : K) (b : List (Lit K)) : vals (.val k :: b) = k :: vals b := rfl
@[simp] theorem vals_cons_sub (t : Tm) (b : List (Lit K)) : vals (.sub t :: b) = vals b := rfl
@[simp] theorem subs_cons_val (k : K) (b : List (Lit K)) : subs (.val k :: b) = subs b := rfl
@[simp] theorem subs_cons_sub (t : Tm) (b : List (Lit K)) : subs (.sub t :: b) = t :: subs b := rfl
@[simp] theorem vals_nil : vals ([] : List (Lit K)) = [] := rfl
@[simp] theorem subs_nil : subs ([] : List (Lit K)) = [] := rfl

theorem foldl_prod (l : List K) (a : K) : l.foldl (· * ·) a = a * l.prod := by
  induction l generalizing a with
  | nil => simp
  | cons x l ih => simp [ih, mul_assoc]

theorem fold_some {dead : K → Bool} {r r' : WRule K} (e : r.fold dead = some r') :
    dead (vals r.body).prod = false ∧ r'.head = r.head ∧ subs r'.body = subs r.body ∧ (vals r'.body).prod = (vals r.body).prod ∧
      r'.body ≠ [] ∧ (subs r.body = [] → r'.body = [.val (vals r.body).prod]) ∧ (subs r.body ≠ [] → r'.constRhs = none) := by
  simp only [fold, foldl_prod, one_mul] at e
  split at e
  · cases e
  · rename_i hd
    split at e
    · rename_i h
      cases e
      have hne : subs r.body ≠ [] := by
        intro h'; rw [h'] at h; simp at h
      refine ⟨by simpa using hd, rfl, subs_subs_map _, ?_, ?_, fun h' => absurd h' hne, fun _ => ?_⟩
      · simp only [vals_subs_map]; simpa using h.1.symm
      · simpa using hne
      · cases hs : subs r.body with
        | nil => exact absurd hs hne
        | cons a l => simp [constRhs]
    · rename_i h
      cases e
      refine ⟨by simpa using hd, rfl, ?_, ?_, by simp, fun h' => by simp [h'], fun h' => ?_⟩
      · simp [subs_subs_map]
      · simp [vals_subs_map]
      · cases hs : subs r.body with
        | nil => exact absurd hs h'
        | cons a l => simp [constRhs]

theorem weight_of_const {r : WRule K} {c : K} (h : r.constRhs = some c) : r.weight = some c := by
  unfold constRhs at h
  split at h
  · rename_i hb; cases h; simp [weight, hb]
  · rename_i k hb; cases h; simp [weight, hb]
  · cases h

theorem renB_vals (gen : Nat → Nat) : ∀ (b : List (Lit K)) (vs : List Nat), vals (renB gen b vs).1 = vals b := by
  intro b
  induction b with
  | nil => intro vs; rfl
  | cons l b ih => intro vs; cases l <;> simp [renB, ih]

theorem renB_subs (gen : Nat → Nat) : ∀ (b : List (Lit K)) (vs : List Nat), (subs (renB gen b vs).1).length = (subs b).length := by
  intro b
  induction b with
  | nil => intro vs; rfl
  | cons l b ih => intro vs; cases l <;> simp [renB, ih]

theorem fresh_weight (fv : Nat → Nat) (k : Nat) (r : WRule K) : (r.fresh fv k).weight = r.weight := by
  have h1 := renB_vals (fun i => fv (k + i)) r.body (ren (fun i => fv (k + i)) r.head []).2
  have h2 := renB_subs (fun i => fv (k + i)) r.body (ren (fun i => fv (k + i)) r.head []).2
  simp only [weight, fresh, h1]
  have : subs (renB (fun i => fv (k + i)) r.body (ren (fun i => fv (k + i)) r.head []).2).1 = [] ↔ subs r.body = [] := by
    rw [← List.length_eq_zero_iff, h2, List.length_eq_zero_iff]
  by_cases h : subs r.body = []
  · rw [if_pos h, if_pos (this.2 h)]
  · rw [if_neg h, if_neg (fun h' => h (this.1 h'))]

theorem fresh_head {fv : Nat → Nat} (hfv : Function.Injective fv) (k : Nat) (r : WRule K) :
    Variant r.head (r.fresh fv k).head := by
  obtain ⟨ws, ew, nd, m, s⟩ := ren_nil (fun i => fv (k + i)) r.head
  simp only [fresh, s]
  exact ⟨fun n => fv (k + idx ws n), fun a ha b hb hab => idx_inj ((m a).2 ha) (by have := hfv hab; omega), rfl⟩

theorem contrib_variant {h : Tm} {r r' : WRule K} (hv : Variant r.head r'.head) (hw : r'.weight = r.weight) :
    contrib h r' = contrib h r := by
  classical
  unfold contrib
  have : Variant r'.head h ↔ Variant r.head h := ⟨fun h1 => hv.trans h1, fun h1 => hv.symm.trans h1⟩
  rw [hw]; simp [this]

theorem sum_set {g : WRule K → K} {x old : WRule K} {c : K} : ∀ (l : List (WRule K)) (i : Nat), l[i]? = some old →
    g x = g old + c → ((l.set i x).map g).sum = (l.map g).sum + c := by
  intro l
  induction l with
  | nil => intro i h; simp at h
  | cons a l ih =>
    intro i h hg
    cases i with
    | zero =>
      simp only [List.getElem?_cons_zero, Option.some.injEq] at h
      subst h
      simp only [List.set_cons_zero, List.map_cons, List.sum_cons, hg]
      rw [add_assoc, add_comm c, ← add_assoc]
    | succ i =>
      simp only [List.getElem?_cons_succ] at h
      simp only [List.set_cons_succ, List.map_cons, List.sum_cons, ih i h hg, add_assoc]

theorem filter_set {P : WRule K → Bool} {x old : WRule K} : ∀ (l : List (WRule K)) (i : Nat), l[i]? = some old →
    P x = false → P old = false → (l.set i x).filter P = l.filter P := by
  intro l
  induction l with
  | nil => intro i h; simp at h
  | cons a l ih =>
    intro i h hx ho
    cases i with
    | zero =>
      simp only [List.getElem?_cons_zero, Option.some.injEq] at h
      subst h
      simp [List.filter_cons, hx, ho]
    | succ i =>
      simp only [List.getElem?_cons_succ] at h
      simp only [List.set_cons_succ, List.filter_cons, ih i h hx ho]

end WRule

namespace ProgUpdate
open WRule
variable {K : Type} [CommSemiring K] [DecidableEq K]

/-- every bucket points to a constant rule with that canonical head -/
def DInv (cv : Nat → Nat) (rules : List (WRule K)) (d : Dict Tm Nat) : Prop :=
  ∀ k i, d.get k = some i → ∃ r, rules[i]? = some r ∧ canonP cv r.head = k ∧ r.constRhs ≠ none

def BInv (cv : Nat → Nat) (p : St K) : Prop := ∀ d, p.buckets = some d → DInv cv p.rules d

theorem makeGo_spec {cv : Nat → Nat} : ∀ (rs pre : List (WRule K)) (d : Dict Tm Nat), DInv cv (pre ++ rs) d →
    DInv cv (pre ++ rs) (makeGo cv rs pre.length d) := by
  intro rs
  induction rs with
  | nil => intro pre d h; simpa [makeGo] using h
  | cons r rs ih =>
    intro pre d h
    have e : pre ++ r :: rs = (pre ++ [r]) ++ rs := by simp
    have hl : pre.length + 1 = (pre ++ [r]).length := by simp
    rw [e] at h ⊢
    simp only [makeGo]
    split
    · rw [hl]; exact ih _ d h
    · rename_i c hc
      split
      · rw [hl]; exact ih _ d h
      · rw [hl]
        refine ih _ _ ?_
        intro k i hk
        rw [Dict.get_set] at hk
        split at hk
        · rename_i h1
          cases hk
          exact ⟨r, by simp, h1, by simp [hc]⟩
        · exact h k i hk

theorem DInv.append {cv : Nat → Nat} {rules : List (WRule K)} {d} (h : DInv cv rules d) (l : List (WRule K)) :
    DInv cv (rules ++ l) d := by
  intro k i hk
  obtain ⟨r, h1, h2⟩ := h k i hk
  exact ⟨r, by rw [List.getElem?_append_left (List.getElem?_eq_some_iff.1 h1).1]; exact h1, h2⟩

/-- no rule has an empty body -/
def NoEmpty (rules : List (WRule K)) : Prop := ∀ r ∈ rules, r.body ≠ []

theorem update_spec {cv fv : Nat → Nat} (hcv : Function.Injective cv) (hfv : Function.Injective fv) {dead : K → Bool}
    (hdead : ∀ c, dead c = true → c = 0) {k : Nat} {p p' : St K} (hp : BInv cv p) {r : WRule K}
    (e : update cv fv dead k p r = some p') :
    BInv cv p' ∧ (∀ h, total h p'.rules = total h p.rules + contrib h r) ∧
    (p'.rules.filter fun r => r.weight.isNone) = (p.rules.filter fun r => r.weight.isNone) ++
      (if r.weight = none then ((r.fold dead).map (·.fresh fv k)).toList else []) ∧
    (NoEmpty p.rules → NoEmpty p'.rules) := by
  classical
  unfold update at e
  split at e
  · rename_i hf
    cases e
    refine ⟨hp, fun h => ?_, by simp [hf], fun h => h⟩
    have : contrib h r = 0 := by
      unfold contrib
      split
      · simp only [fold, foldl_prod, one_mul] at hf
        split at hf
        · rename_i hd
          unfold weight
          split
          · simp [hdead _ hd]
          · simp
        · split at hf <;> cases hf
      · rfl
    rw [this, add_zero]
  · rename_i r1 hf
    obtain ⟨f1, f2, f3, f4, f5, f6, f7⟩ := fold_some hf
    have hw : r1.weight = r.weight := by simp [weight, f3, f4]
    have hcr : ∀ h, contrib h r1 = contrib h r := fun h => by simp [contrib, f2, hw]
    have hfr : ∀ h, contrib h (r1.fresh fv k) = contrib h r := fun h => by
      rw [contrib_variant (fresh_head hfv k r1) (fresh_weight fv k r1), hcr]
    have hfe : (r1.fresh fv k).body ≠ [] := by
      intro h'
      have hb : r1.body ≠ [] := f5
      cases hb1 : r1.body with
      | nil => exact hb hb1
      | cons l b => cases l <;> simp [WRule.fresh, hb1, renB] at h'
    have hd : DInv cv p.rules (getBuckets cv p) := by
      unfold getBuckets
      split
      · rename_i d hd; exact hp d hd
      · have := makeGo_spec (cv := cv) p.rules [] [] (fun k i h => by simp at h)
        simpa using this
    generalize getBuckets cv p = d at e hd
    have happ : ∀ {rules : List (WRule K)}, NoEmpty rules → NoEmpty (rules ++ [r1.fresh fv k]) := by
      intro rules h x hx
      rw [List.mem_append, List.mem_singleton] at hx
      rcases hx with hx | rfl
      · exact h x hx
      · exact hfe
    unfold updateBucket at e
    cases hc : r1.constRhs with
    | none =>
      simp only [hc, Option.some.injEq] at e
      subst e
      have hwn : r.weight = none := by
        unfold weight
        split
        · rename_i hs
          have := f6 hs
          simp [constRhs, this] at hc
        · rfl
      refine ⟨fun d' hd' => ?_, fun h => ?_, ?_, fun h => happ h⟩
      · simp only [Option.some.injEq] at hd'
        subst hd'
        exact hd.append _
      · simp [total, hfr]
      · rw [List.filter_append, if_pos hwn, hf]
        simp [fresh_weight, hw, hwn]
    | some C =>
      simp only [hc] at e
      have hwC : r1.weight = some C := weight_of_const hc
      have hws : r.weight ≠ none := by rw [← hw, hwC]; simp
      rw [if_neg hws, List.append_nil]
      cases hg : d.get (canonP cv r1.head) with
      | none =>
        simp only [hg, Option.some.injEq] at e
        subst e
        refine ⟨fun d' hd' => ?_, fun h => ?_, ?_, fun h => happ h⟩
        · simp only [Option.some.injEq] at hd'
          subst hd'
          intro key i hk
          rw [Dict.get_set] at hk
          split at hk
          · rename_i h1
            cases hk
            refine ⟨r1.fresh fv k, by simp, ?_, ?_⟩
            · rw [← h1]; exact ((canonP_eq_iff hcv).2 (fresh_head hfv k r1)).symm
            · obtain ⟨c', hc'⟩ : ∃ c', r1.body = [.val c'] := by
                unfold constRhs at hc
                split at hc
                · rename_i hb; exact absurd hb f5
                · rename_i c' hb; exact ⟨c', hb⟩
                · cases hc
              simp [WRule.fresh, hc', renB, constRhs]
          · exact hd.append _ key i hk
        · simp [total, hfr]
        · rw [List.filter_append]
          have : (r1.fresh fv k).weight.isNone = false := by rw [fresh_weight, hwC]; rfl
          simp [this]
      | some i =>
        obtain ⟨s, s1, s2, s3⟩ := hd _ i hg
        simp only [hg, s1] at e
        obtain ⟨sh, sb⟩ := s
        have hsb : sb = [] ∨ ∃ S, sb = [.val S] := by
          unfold constRhs at s3
          split at s3
          · rename_i hb; exact .inl hb
          · rename_i S hb; exact .inr ⟨S, hb⟩
          · exact absurd rfl s3
        rcases hsb with rfl | ⟨S, rfl⟩
        · cases e
        · simp only [Option.some.injEq] at e
          subst e
          refine ⟨fun d' hd' => ?_, fun h => ?_, ?_, fun h => ?_⟩
          · simp only [Option.some.injEq] at hd'
            subst hd'
            intro key j hk
            obtain ⟨t, t1, t2, t3⟩ := hd key j hk
            by_cases hij : i = j
            · subst hij
              rw [s1] at t1
              cases t1
              refine ⟨⟨sh, [.val (S + C)]⟩, by rw [List.getElem?_set]; simp [(List.getElem?_eq_some_iff.1 s1).1], t2, by simp [constRhs]⟩
            · exact ⟨t, by rw [List.getElem?_set]; simp [hij, t1], t2, t3⟩
          · have hv : Variant sh r.head := by rw [← f2]; exact (canonP_eq_iff hcv).1 s2
            refine sum_set p.rules i s1 ?_
            unfold contrib
            have : Variant r.head h ↔ Variant sh h := ⟨fun h1 => hv.trans h1, fun h1 => hv.symm.trans h1⟩
            simp only [this]
            split
            · rw [← hw, hwC]; simp [weight]
            · simp
          · exact filter_set p.rules i s1 (by simp [weight]) (by simp [weight])
          · intro x hx
            rcases List.mem_or_eq_of_mem_set hx with hx | rfl
            · exact h x hx
            · simp

/-! ### Property C19 -/

/-- A program reachable from a list of rules by updates and removals. -/
inductive Reach (cv fv : Nat → Nat) (dead : K → Bool) : St K → Prop
  | init (rules) : Reach cv fv dead ⟨rules, none⟩
  | update {p p' k r} : Reach cv fv dead p → update cv fv dead k p r = some p' → Reach cv fv dead p'
  | pop {p} (i) : Reach cv fv dead p → Reach cv fv dead (pop p i)

theorem Reach.inv {cv fv : Nat → Nat} (hcv : Function.Injective cv) (hfv : Function.Injective fv) {dead : K → Bool}
    (hdead : ∀ c, dead c = true → c = 0) {p : St K} (h : Reach cv fv dead p) : BInv cv p := by
  induction h with
  | init rules => intro d hd; cases hd
  | update _ e ih => exact (update_spec hcv hfv hdead ih e).1
  | pop i _ _ => intro d hd; cases hd

/-- In any program reached by updates and removals, adding a rule changes the constant weight of every
head by exactly what the rule contributes: its product of constants if its body has no other subgoal and
its head is (a renaming of) that head, else nothing.  `dead` is the tolerance test; it must hold only of
zero. -/
theorem C19_accumulates {cv fv : Nat → Nat} (hcv : Function.Injective cv) (hfv : Function.Injective fv) {dead : K → Bool}
    (hdead : ∀ c, dead c = true → c = 0) {p p' : St K} (hp : Reach cv fv dead p) {k : Nat} {r : WRule K}
    (e : update cv fv dead k p r = some p') (h : Tm) : total h p'.rules = total h p.rules + contrib h r :=
  (update_spec hcv hfv hdead (hp.inv hcv hfv hdead) e).2.1 h

/-- Rules with non-constant subgoals stay as they are and in order; a new such rule is added at the end
(with its constants multiplied out and its variables renamed). -/
theorem C19_nonconstant {cv fv : Nat → Nat} (hcv : Function.Injective cv) (hfv : Function.Injective fv) {dead : K → Bool}
    (hdead : ∀ c, dead c = true → c = 0) {p p' : St K} (hp : Reach cv fv dead p) {k : Nat} {r : WRule K}
    (e : update cv fv dead k p r = some p') :
    ∃ new, (p'.rules.filter fun r => r.weight.isNone) = (p.rules.filter fun r => r.weight.isNone) ++ new ∧
      (new ≠ [] → subs r.body ≠ [] ∧ dead (vals r.body).prod = false ∧ ∃ r', new = [r'] ∧ Variant r.head r'.head ∧
        (vals r'.body).prod = (vals r.body).prod ∧ (subs r'.body).length = (subs r.body).length) ∧
      (subs r.body ≠ [] → dead (vals r.body).prod = false → new ≠ []) := by
  refine ⟨_, (update_spec hcv hfv hdead (hp.inv hcv hfv hdead) e).2.2.1, ?_, ?_⟩
  · intro hne
    have hw : r.weight = none := by by_contra h; simp [h] at hne
    rw [if_pos hw] at hne ⊢
    cases hf : r.fold dead with
    | none => simp [hf] at hne
    | some r1 =>
      obtain ⟨f1, f2, f3, f4, f5, f6, f7⟩ := fold_some hf
      refine ⟨fun h => by simp [weight, h] at hw, f1, r1.fresh fv k, by simp, ?_, ?_, ?_⟩
      · rw [← f2]; exact fresh_head hfv k r1
      · rw [← f4]; simp only [WRule.fresh, renB_vals]
      · rw [← f3]; simp only [WRule.fresh, renB_subs]
  · intro h1 h2
    have hw : r.weight = none := by simp [weight, h1]
    rw [if_pos hw]
    cases hf : r.fold dead with
    | none =>
      simp only [fold, foldl_prod, one_mul, h2] at hf
      split at hf
      · rename_i h; cases h
      · split at hf <;> cases hf
    | some r1 => simp

/-- After any sequence of updates of a list of rules, the constant weight of every head is its initial
weight plus the sum of all contributions. -/
theorem C19_history {cv fv : Nat → Nat} (hcv : Function.Injective cv) (hfv : Function.Injective fv) {dead : K → Bool}
    (hdead : ∀ c, dead c = true → c = 0) : ∀ (rs : List (Nat × WRule K)) {p p' : St K}, Reach cv fv dead p →
    updates cv fv dead p rs = some p' → ∀ h, total h p'.rules = total h p.rules + (rs.map fun r => contrib h r.2).sum := by
  intro rs
  induction rs with
  | nil => intro p p' _ e h; cases e; simp
  | cons r rs ih =>
    intro p p' hp e h
    obtain ⟨k, r⟩ := r
    simp only [updates] at e
    split at e
    · cases e
    · rename_i q hq
      rw [ih (.update hp hq) e h, C19_accumulates hcv hfv hdead hp hq h]
      simp [add_assoc]

/-- Updates never fail on programs without empty-bodied rules. -/
theorem C19_no_error {cv fv : Nat → Nat} (hcv : Function.Injective cv) (hfv : Function.Injective fv) {dead : K → Bool}
    (hdead : ∀ c, dead c = true → c = 0) {p : St K} (hp : BInv cv p) (hn : NoEmpty p.rules) (k : Nat) (r : WRule K) :
    ∃ p', update cv fv dead k p r = some p' ∧ BInv cv p' ∧ NoEmpty p'.rules := by
  suffices h : ∃ p', update cv fv dead k p r = some p' by
    obtain ⟨p', e⟩ := h
    have := update_spec hcv hfv hdead hp e
    exact ⟨p', e, this.1, this.2.2.2 hn⟩
  unfold update
  split
  · exact ⟨_, rfl⟩
  · rename_i r1 hf
    have hd : DInv cv p.rules (getBuckets cv p) := by
      unfold getBuckets
      split
      · rename_i d hd; exact hp d hd
      · have := makeGo_spec (cv := cv) p.rules [] [] (fun k i h => by simp at h)
        simpa using this
    generalize getBuckets cv p = d at hd
    simp only [updateBucket]
    cases hc : r1.constRhs with
    | none => exact ⟨_, rfl⟩
    | some C =>
      simp only
      cases hg : d.get (canonP cv r1.head) with
      | none => exact ⟨_, rfl⟩
      | some i =>
        obtain ⟨s, s1, s2, s3⟩ := hd _ i hg
        obtain ⟨sh, sb⟩ := s
        have : ∃ S, sb = [.val S] := by
          have hne : sb ≠ [] := hn _ (List.mem_of_getElem? s1)
          unfold constRhs at s3
          split at s3
          · rename_i hb; exact absurd hb hne
          · rename_i S hb; exact ⟨S, hb⟩
          · exact absurd rfl s3
        obtain ⟨S, rfl⟩ := this
        simp only [s1]
        exact ⟨_, rfl⟩

section
private def fX (n : Nat) : Tm := .app [.con (.str "f"), .var n]
private def ex : St Nat := ⟨[⟨fX 1, [.val 2]⟩, ⟨fX 3, [.val 3, .sub (fX 3)]⟩, ⟨fX 5, [.val 4]⟩], none⟩
/-- merging `f(X) += 5 * 2` into the first of two rules for `f(X)` -/
example : (update (2 * ·) (2 * · + 1) (· == 0) 3 ex ⟨fX 7, [.val 5, .val 2]⟩).map (·.rules) =
    some [⟨fX 1, [.val 12]⟩, ⟨fX 3, [.val 3, .sub (fX 3)]⟩, ⟨fX 5, [.val 4]⟩] := by decide +kernel
example : NoEmpty ex.rules ∧ Reach (K := Nat) (2 * ·) (2 * · + 1) (· == 0) ex ∧ ∀ c : Nat, (c == 0) = true → c = 0 :=
  ⟨by intro r hr; simp [ex] at hr; rcases hr with rfl | rfl | rfl <;> simp, .init _, by simp⟩

/-- A program holding a rule with an empty body fails on the next constant for that head: the bucket
points to it and `[S] = s.body` raises. -/
theorem C19_empty_body : update (K := Nat) (2 * ·) (2 * · + 1) (· == 0) 3 ⟨[⟨fX 1, []⟩], none⟩ ⟨fX 7, [.val 5]⟩ = none := by
  decide +kernel
end

end ProgUpdate
end Verif
