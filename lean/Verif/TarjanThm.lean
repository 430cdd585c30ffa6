/-
Property C40: strongly connected components.
-/
import Verif.Tarjan
import Mathlib.Logic.Relation
import Mathlib.Data.Finset.Card
import Mathlib.Data.List.Pairwise
import Mathlib.Data.Set.Insert

set_option linter.unusedSectionVars false
set_option linter.unusedSimpArgs false

namespace Verif
namespace Tarjan
variable {α : Type} [DecidableEq α]

/-! ### Specification -/

/-- there is a (possibly empty) path from `x` to `y` -/
abbrev Reach (succ : α → List α) : α → α → Prop := Relation.ReflTransGen fun x y => y ∈ succ x

/-! ### Invariant -/

/-- `x` has been visited -/
def Vis (s : TS α) (x : α) : Prop := s.lowest x ≠ none
/-- `x` is in an emitted component -/
def Done (s : TS α) (x : α) : Prop := ∃ c ∈ s.out, x ∈ c

/-- every successor of a member of a component lies in it or in an earlier one -/
def Ordered (succ : α → List α) (out : List (List α)) : Prop :=
  ∀ l1 c l2, out = l1 ++ c :: l2 → ∀ x ∈ c, ∀ y ∈ succ x, y ∈ c ∨ ∃ c' ∈ l1, y ∈ c'

structure Inv (succ : α → List α) (num : α → Nat) (gray : Set α) (s : TS α) : Prop where
  vis : ∀ x, Vis s x ↔ x ∈ s.stack ∨ Done s x
  disj : ∀ x ∈ s.stack, ¬ Done s x
  comps : s.out.Pairwise fun a b => ∀ x ∈ a, x ∉ b
  compnd : ∀ c ∈ s.out, c ≠ [] ∧ c.Nodup
  trail : ∀ x, x ∈ s.trail ↔ x ∈ s.stack
  sorted : s.stack.Pairwise fun a b => num b < num a
  le : ∀ x ∈ s.stack, num x ≤ s.t
  low : ∀ x ∈ s.stack, ∀ l, s.lowest x = some l → l ≤ num x ∧ ∃ y ∈ s.stack, num y = l ∧ Reach succ x y
  ordered : Ordered succ s.out
  scc : ∀ c ∈ s.out, ∀ x ∈ c, ∀ y, y ∈ c ↔ Reach succ x y ∧ Reach succ y x
  up : ∀ x ∈ s.stack, ∀ y ∈ s.stack, num x ≤ num y → Reach succ x y
  gr : ∀ x ∈ s.stack, ∃ g ∈ gray, Reach succ x g
  gsub : ∀ g ∈ gray, g ∈ s.stack
  black : ∀ x ∈ s.stack, x ∉ gray → ∀ y ∈ succ x, Vis s y

variable {succ : α → List α}

theorem Ordered.closed {out : List (List α)} (h : Ordered succ out) {x y : α} (hx : ∃ c ∈ out, x ∈ c)
    (hr : Reach succ x y) : ∃ c ∈ out, y ∈ c := by
  induction hr with
  | refl => exact hx
  | tail _ st ih =>
    obtain ⟨c, hc, hxc⟩ := ih
    obtain ⟨l1, l2, rfl⟩ := List.append_of_mem hc
    rcases h l1 c l2 rfl _ hxc _ st with h1 | ⟨c', h1, h2⟩
    · exact ⟨c, hc, h1⟩
    · exact ⟨c', by simp [h1], h2⟩

/-- `gray` ancestors all reach `v`; `v` is pushed -/
theorem push_inv {num gray s v} (h : Inv succ num gray s) (hv : s.lowest v = none) (hg : ∀ g ∈ gray, Reach succ g v) :
    Inv succ (fun x => if x = v then s.t + 1 else num x) (insert v gray) (s.push v) := by
  have hvs : v ∉ s.stack := fun hm => (h.vis v).2 (.inl hm) hv
  have hvd : ¬ Done s v := fun hm => (h.vis v).2 (.inr hm) hv
  have hne : ∀ x ∈ s.stack, x ≠ v := fun x hx e => hvs (e ▸ hx)
  have toV : ∀ x ∈ s.stack, Reach succ x v := fun x hx => by
    obtain ⟨g, hg1, hg2⟩ := h.gr x hx; exact hg2.trans (hg g hg1)
  constructor
  · intro x
    by_cases e : x = v
    · subst e; simp [Vis, TS.push]
    · have := h.vis x
      simp only [Vis, Done] at this
      simp [Vis, Done, TS.push, e, this]
  · intro x hx
    simp only [TS.push, List.mem_cons] at hx
    rcases hx with rfl | hx
    · exact hvd
    · exact h.disj x hx
  · exact h.comps
  · exact h.compnd
  · intro x; simp [TS.push, h.trail]
  · refine List.pairwise_cons.2 ⟨fun b hb => ?_, h.sorted.imp_of_mem fun {a b} ha hb hab => ?_⟩
    · simp only [if_neg (hne b hb), if_true]; have := h.le b hb; omega
    · simp only [if_neg (hne a ha), if_neg (hne b hb)]; exact hab
  · intro x hx
    simp only [TS.push, List.mem_cons] at hx ⊢
    by_cases e : x = v
    · simp [e]
    · rcases hx with hx | hx
      · exact absurd hx e
      · simp only [if_neg e]; have := h.le x hx; omega
  · intro x hx l hl
    simp only [TS.push, List.mem_cons] at hx hl ⊢
    by_cases e : x = v
    · simp only [if_pos e, Option.some.injEq] at hl ⊢
      exact ⟨by omega, v, .inl rfl, by simp [hl], by rw [e]⟩
    · rcases hx with hx | hx
      · exact absurd hx e
      · simp only [if_neg e] at hl ⊢
        obtain ⟨h1, y, hy, h2, h3⟩ := h.low x hx l hl
        exact ⟨h1, y, .inr hy, by simp [hne y hy, h2], h3⟩
  · exact h.ordered
  · exact h.scc
  · intro x hx y hy hxy
    simp only [TS.push, List.mem_cons] at hx hy
    rcases hx with rfl | hx
    · rcases hy with rfl | hy
      · exact .refl
      · simp only [if_true, if_neg (hne y hy)] at hxy; have := h.le y hy; omega
    · rcases hy with rfl | hy
      · exact toV x hx
      · simp only [if_neg (hne x hx), if_neg (hne y hy)] at hxy; exact h.up x hx y hy hxy
  · intro x hx
    simp only [TS.push, List.mem_cons] at hx
    rcases hx with rfl | hx
    · exact ⟨_, .inl rfl, .refl⟩
    · exact ⟨v, .inl rfl, toV x hx⟩
  · intro g hg
    simp only [TS.push, List.mem_cons]
    rcases hg with rfl | hg
    · exact .inl rfl
    · exact .inr (h.gsub g hg)
  · intro x hx hxg y hy
    simp only [TS.push, List.mem_cons] at hx
    simp only [Set.mem_insert_iff, not_or] at hxg
    rcases hx with hx | hx
    · exact absurd hx hxg.1
    · have := h.black x hx hxg.2 y hy
      simp only [Vis, TS.push] at this ⊢
      split
      · simp
      · exact this

/-- changing the low value of `v` to that of some stack node it reaches -/
theorem relow {num gray s v a} (h : Inv succ num gray s) (hv : v ∈ s.stack) (ha : a ≤ num v)
    (hy : ∃ y ∈ s.stack, num y = a ∧ Reach succ v y) :
    Inv succ num gray { s with lowest := fun x => if x = v then some a else s.lowest x } := by
  refine ⟨fun x => ?_, h.disj, h.comps, h.compnd, h.trail, h.sorted, h.le, fun x hx l hl => ?_, h.ordered, h.scc,
    h.up, h.gr, h.gsub, fun x hx hg y hy => ?_⟩
  · have := h.vis x
    by_cases e : x = v
    · subst e; simp [Vis, hv]
    · simp only [Vis, Done] at this ⊢; simpa only [if_neg e] using this
  · simp only at hl
    by_cases e : x = v
    · subst e; simp only [if_true, Option.some.injEq] at hl; subst hl; exact ⟨ha, hy⟩
    · simp only [if_neg e] at hl; exact h.low x hx l hl
  · have := h.black x hx hg y hy
    simp only [Vis] at this ⊢
    split
    · simp
    · exact this

/-- what a call of `dfs(v)` guarantees -/
structure Post (succ : α → List α) (num : α → Nat) (gray : Set α) (v : α) (s s' : TS α) (num' : α → Nat)
    (ext : List α) (lv : Nat) : Prop where
  inv : Inv succ num' gray s'
  numeq : ∀ x ∈ s.stack, num' x = num x
  same : ∀ x, Vis s x → s'.lowest x = s.lowest x
  stk : s'.stack = ext ++ s.stack
  out : s.out <+: s'.out
  t : s.t < s'.t
  low : s'.lowest v = some lv
  big : ∀ x ∈ ext, ∀ y ∈ succ x, y ∈ s.stack → lv ≤ num y
  inn : v ∉ ext → lv = s.t + 1
  numv : ∀ x ∈ ext, s.t < num' x
  reach : ∀ x, Vis s' x → Vis s x ∨ Reach succ v x

/-- the state of the loop over the successors of `v`; `P` = processed successors -/
structure LInv (succ : α → List α) (num : α → Nat) (gray : Set α) (v : α) (s0 : TS α) (s : TS α)
    (ext : List α) (lv : Nat) (P : List α) : Prop where
  inv : Inv succ num (insert v gray) s
  numv : num v = s0.t + 1
  stk : s.stack = ext ++ v :: s0.stack
  out : s0.out <+: s.out
  t : s0.t < s.t
  same : ∀ x, Vis s0 x → s.lowest x = s0.lowest x
  low : s.lowest v = some lv
  big : ∀ x ∈ ext, ∀ y ∈ succ x, y ∈ s0.stack → lv ≤ num y
  numext : ∀ x ∈ ext, s0.t + 1 < num x
  proc : ∀ w ∈ P, Vis s w ∧ (w ∈ s0.stack → lv ≤ num w)
  reach : ∀ x, Vis s x → Vis s0 x ∨ Reach succ v x

variable {gray : Set α} {v : α} {s0 : TS α}

theorem loop_spec {rec : α → TS α → Option (TS α)} (hv0 : s0.lowest v = none) (hg : ∀ g ∈ gray, Reach succ g v)
    (hrec : ∀ num gray w s s', Inv succ num gray s → s.lowest w = none → (∀ g ∈ gray, Reach succ g w) →
      rec w s = some s' → ∃ num' ext lv, Post succ num gray w s s' num' ext lv) :
    ∀ ws P s num ext lv, (∀ w ∈ ws, w ∈ succ v) → LInv succ num gray v s0 s ext lv P →
      ∀ s', loop rec v ws s = some s' →
      ∃ num' ext' lv', LInv succ num' gray v s0 s' ext' lv' (P ++ ws) ∧ ∀ x ∈ s0.stack, num' x = num x := by
  intro ws
  induction ws with
  | nil =>
    intro P s num ext lv _ h s' e
    simp only [loop, Option.some.injEq] at e; subst e
    exact ⟨num, ext, lv, by simpa using h, fun _ _ => rfl⟩
  | cons w ws ih =>
    intro P s num ext lv hws h s' e
    have hw : w ∈ succ v := hws w (by simp)
    have hvst : v ∈ s.stack := by rw [h.stk]; simp
    have hlv := h.inv.low v hvst lv h.low
    rw [loop] at e
    cases hl : s.lowest w with
    | none =>
      simp only [hl] at e
      cases hd : rec w s with
      | none => simp [hd] at e
      | some s1 =>
        obtain ⟨num1, ext1, lw, p⟩ := hrec num (insert v gray) w s s1 h.inv hl (by
          intro g hg'
          rcases hg' with rfl | hg'
          · exact .single hw
          · exact (hg g hg').tail hw) hd
        have hvis0 : ∀ x, Vis s0 x → Vis s x := fun x hx => by simpa [Vis, h.same x hx] using hx
        have hvv : Vis s v := by simp [Vis, h.low]
        have hlv1 : s1.lowest v = some lv := by rw [p.same v hvv, h.low]
        have hvst1 : v ∈ s1.stack := by rw [p.stk]; simp [hvst]
        have hnv : num1 v = s0.t + 1 := by rw [p.numeq v hvst, h.numv]
        have hst0 : ∀ x ∈ s0.stack, x ∈ s.stack := fun x hx => by rw [h.stk]; simp [hx]
        have hmin : min lv lw ≤ num1 v := le_trans (min_le_left _ _) (by rw [hnv, ← h.numv]; exact hlv.1)
        have hy1 : ∃ y ∈ s1.stack, num1 y = min lv lw ∧ Reach succ v y := by
          obtain ⟨y, hy, hy2, hy3⟩ := hlv.2
          have hlvy : ∃ y ∈ s1.stack, num1 y = lv ∧ Reach succ v y :=
            ⟨y, by rw [p.stk]; simp [hy], by rw [p.numeq y hy, hy2], hy3⟩
          by_cases hin : w ∈ ext1
          · have hws1 : w ∈ s1.stack := by rw [p.stk]; simp [hin]
            obtain ⟨_, z, hz, hz2, hz3⟩ := p.inv.low w hws1 lw p.low
            rcases min_choice lv lw with hm | hm
            · rw [hm]; exact hlvy
            · rw [hm]; exact ⟨z, hz, hz2, hz3.head hw⟩
          · have := p.inn hin
            have h3 : lv ≤ lw := by have := h.t; have := hlv.1; rw [h.numv] at this; omega
            rw [min_eq_left h3]; exact hlvy
        simp only [hd, TS.relax, hlv1, p.low] at e
        have step := ih (P ++ [w]) _ num1 (ext1 ++ ext) (min lv lw) (fun w hw => hws w (by simp [hw])) (by
          refine ⟨relow p.inv hvst1 hmin hy1, hnv, by rw [p.stk, h.stk]; simp, h.out.trans p.out,
            lt_trans h.t p.t, ?_, by simp, ?_, ?_, ?_, ?_⟩
          · intro x hx
            have hxv : x ≠ v := fun e => by subst e; exact hx hv0
            simp only [if_neg hxv]
            rw [p.same x (hvis0 x hx), h.same x hx]
          · intro x hx y hy hys
            rw [p.numeq y (hst0 y hys)]
            rcases List.mem_append.1 hx with hx | hx
            · exact le_trans (min_le_right _ _) (p.big x hx y hy (hst0 y hys))
            · exact le_trans (min_le_left _ _) (h.big x hx y hy hys)
          · intro x hx
            rcases List.mem_append.1 hx with hx | hx
            · have := p.numv x hx; have := h.t; omega
            · rw [p.numeq x (by rw [h.stk]; simp [hx])]; exact h.numext x hx
          · intro x hx
            rcases List.mem_append.1 hx with hx | hx
            · obtain ⟨a1, a2⟩ := h.proc x hx
              refine ⟨?_, fun hxs => ?_⟩
              · simp only [Vis]; split
                · simp
                · rw [p.same x a1]; exact a1
              · rw [p.numeq x (hst0 x hxs)]; exact le_trans (min_le_left _ _) (a2 hxs)
            · simp only [List.mem_singleton] at hx; subst hx
              refine ⟨?_, fun hxs => ?_⟩
              · simp only [Vis]; split
                · simp
                · simp [p.low]
              · exact absurd hl ((h.inv.vis x).2 (.inl (hst0 x hxs)))
          · intro x hx
            have hx' : x = v ∨ Vis s1 x := by
              simp only [Vis] at hx
              split at hx
              · left; assumption
              · exact .inr hx
            rcases hx' with rfl | hx'
            · exact .inr .refl
            · rcases p.reach x hx' with h1 | h1
              · exact h.reach x h1
              · exact .inr (h1.head hw)) s' e
        obtain ⟨num2, ext2, lv2, l2, hnum2⟩ := step
        refine ⟨num2, ext2, lv2, by simpa using l2, fun x hx => ?_⟩
        rw [hnum2 x hx, p.numeq x (hst0 x hx)]
    | some lw =>
      simp only [hl] at e
      have hvisw : Vis s w := by simp [Vis, hl]
      by_cases htr : w ∈ s.trail
      · rw [if_pos htr] at e
        simp only [TS.relax, h.low, hl] at e
        have hwst := (h.inv.trail w).1 htr
        obtain ⟨hlw, z, hz, hz2, hz3⟩ := h.inv.low w hwst lw hl
        have hmin : min lv lw ≤ num v := le_trans (min_le_left _ _) hlv.1
        have hy1 : ∃ y ∈ s.stack, num y = min lv lw ∧ Reach succ v y := by
          rcases min_choice lv lw with hm | hm
          · rw [hm]; exact hlv.2
          · rw [hm]; exact ⟨z, hz, hz2, hz3.head hw⟩
        have step := ih (P ++ [w]) _ num ext (min lv lw) (fun w hw => hws w (by simp [hw])) (by
          refine ⟨relow h.inv hvst hmin hy1, h.numv, h.stk, h.out, h.t, ?_, by simp, ?_, h.numext, ?_, ?_⟩
          · intro x hx
            have hxv : x ≠ v := fun e => by subst e; exact hx hv0
            simp only [if_neg hxv]
            exact h.same x hx
          · intro x hx y hy hys
            exact le_trans (min_le_left _ _) (h.big x hx y hy hys)
          · intro x hx
            rcases List.mem_append.1 hx with hx | hx
            · obtain ⟨a1, a2⟩ := h.proc x hx
              refine ⟨?_, fun hxs => le_trans (min_le_left _ _) (a2 hxs)⟩
              simp only [Vis]; split
              · simp
              · exact a1
            · simp only [List.mem_singleton] at hx; subst hx
              refine ⟨?_, fun hxs => le_trans (min_le_right _ _) hlw⟩
              simp only [Vis]; split
              · simp
              · exact hvisw
          · intro x hx
            have hx' : x = v ∨ Vis s x := by
              simp only [Vis] at hx
              split at hx
              · left; assumption
              · exact .inr hx
            rcases hx' with rfl | hx'
            · exact .inr .refl
            · exact h.reach x hx') s' e
        obtain ⟨num2, ext2, lv2, l2, hnum2⟩ := step
        exact ⟨num2, ext2, lv2, by simpa using l2, hnum2⟩
      · rw [if_neg htr] at e
        have hwst : w ∉ s.stack := fun hm => htr ((h.inv.trail w).2 hm)
        have step := ih (P ++ [w]) s num ext lv (fun w hw => hws w (by simp [hw])) (by
          refine ⟨h.inv, h.numv, h.stk, h.out, h.t, h.same, h.low, h.big, h.numext, ?_, h.reach⟩
          intro x hx
          rcases List.mem_append.1 hx with hx | hx
          · exact h.proc x hx
          · simp only [List.mem_singleton] at hx; subst hx
            exact ⟨hvisw, fun hxs => absurd (by rw [h.stk]; simp [hxs]) hwst⟩) s' e
        obtain ⟨num2, ext2, lv2, l2, hnum2⟩ := step
        exact ⟨num2, ext2, lv2, by simpa using l2, hnum2⟩

theorem popTo_spec {v : α} {S0 : List α} : ∀ (ext : List α) (tr : Finset α) (C : List α), v ∉ ext →
    (ext ++ v :: S0).Nodup → (∀ x, x ∈ tr ↔ x ∈ ext ++ v :: S0) →
    ∃ tr', popTo v (ext ++ v :: S0) tr C = some (S0, tr', C ++ ext ++ [v]) ∧ ∀ x, x ∈ tr' ↔ x ∈ S0 := by
  intro ext
  induction ext with
  | nil =>
    intro tr C _ hnd ht
    simp only [List.nil_append, List.nodup_cons] at hnd
    refine ⟨tr.erase v, by simp [popTo, (ht v).2], fun x => ?_⟩
    simp only [Finset.mem_erase, ht, List.nil_append, List.mem_cons]
    constructor
    · rintro ⟨h1, h2 | h2⟩
      · exact absurd h2 h1
      · exact h2
    · intro h; exact ⟨fun e => hnd.1 (e ▸ h), .inr h⟩
  | cons w ext ih =>
    intro tr C hv hnd ht
    simp only [List.mem_cons, not_or] at hv
    simp only [List.cons_append, List.nodup_cons] at hnd
    obtain ⟨tr', h1, h2⟩ := ih (tr.erase w) (C ++ [w]) hv.2 hnd.2 (fun x => by
      simp only [Finset.mem_erase, ht, List.cons_append, List.mem_cons]
      constructor
      · rintro ⟨h1, h2 | h2⟩
        · exact absurd h2 h1
        · exact h2
      · intro h; exact ⟨fun e => hnd.1 (e ▸ h), .inr h⟩)
    refine ⟨tr', ?_, h2⟩
    simp only [List.cons_append, popTo, if_pos ((ht w).2 (by simp)), if_neg (Ne.symm hv.1), h1]
    simp

theorem sorted_nodup {num : α → Nat} {l : List α} (h : l.Pairwise fun a b => num b < num a) : l.Nodup :=
  h.imp fun {a b} hab e => by subst e; omega

theorem dfs_spec : ∀ f num gray v s s', Inv succ num gray s → s.lowest v = none → (∀ g ∈ gray, Reach succ g v) →
    dfs succ f v s = some s' → ∃ num' ext lv, Post succ num gray v s s' num' ext lv := by
  intro f
  induction f with
  | zero => intro num gray v s s' _ _ _ e; simp [dfs] at e
  | succ f ihf =>
    intro num gray v s s' h hv hg e
    rw [dfs] at e
    have hvs : v ∉ s.stack := fun hm => (h.vis v).2 (.inl hm) hv
    have hvd : ¬ Done s v := fun hm => (h.vis v).2 (.inr hm) hv
    have hvg : v ∉ gray := fun hm => hvs (h.gsub v hm)
    have hne : ∀ x ∈ s.stack, x ≠ v := fun x hx e => hvs (e ▸ hx)
    cases hl : loop (dfs succ f) v (succ v) (s.push v) with
    | none => simp [hl] at e
    | some s1 =>
      obtain ⟨num1, ext, lv, L, hnum⟩ := loop_spec (s0 := s) hv hg ihf (succ v) [] (s.push v)
        (fun x => if x = v then s.t + 1 else num x) [] (s.t + 1) (fun w hw => hw) (by
          refine ⟨push_inv h hv hg, by simp, rfl, List.prefix_refl _, by simp [TS.push], ?_, by simp [TS.push],
            by simp, by simp, by simp, ?_⟩
          · intro x hx
            have hxv : x ≠ v := fun e => by subst e; exact hx hv
            simp [TS.push, hxv]
          · intro x hx
            simp only [Vis, TS.push] at hx
            split at hx
            · rename_i e; subst e; exact .inr .refl
            · exact .inl hx) s1 hl
      simp only [List.nil_append] at L
      have hnum' : ∀ x ∈ s.stack, num1 x = num x := fun x hx => by rw [hnum x hx]; simp [hne x hx]
      have hnd := sorted_nodup L.inv.sorted
      rw [L.stk] at hnd
      have hvext : v ∉ ext := fun hm => by
        have := (List.nodup_append.1 hnd).2.2 v hm v (by simp); exact this rfl
      have hvst : v ∈ s1.stack := by rw [L.stk]; simp
      have hext : ∀ x ∈ ext, x ∈ s1.stack := fun x hx => by rw [L.stk]; simp [hx]
      have hold : ∀ x ∈ s.stack, x ∈ s1.stack := fun x hx => by rw [L.stk]; simp [hx]
      -- all of the new segment reaches v
      have toV : ∀ x ∈ s1.stack, Reach succ x v := fun x hx => by
        obtain ⟨g, hg1, hg2⟩ := L.inv.gr x hx
        rcases hg1 with rfl | hg1
        · exact hg2
        · exact hg2.trans (hg g hg1)
      have fromV : ∀ x ∈ ext, Reach succ v x := fun x hx =>
        L.inv.up v hvst x (hext x hx) (by have := L.numext x hx; rw [L.numv]; omega)
      obtain ⟨hlv1, ylow, hyl, hyl2, hyl3⟩ := L.inv.low v hvst lv L.low
      have hnl : ∀ x ∈ s.stack, num1 x < s.t + 1 := fun x hx => by
        have := h.le x hx; rw [hnum' x hx]; omega
      simp only [hl, L.low, Option.some.injEq] at e
      by_cases hroot : lv = s.t + 1
      · rw [if_pos hroot] at e
        obtain ⟨tr', hp, htr'⟩ := popTo_spec ext s1.trail [] hvext hnd (fun x => by rw [L.inv.trail, L.stk])
        rw [L.stk, hp] at e
        simp only [Option.some.injEq, List.nil_append] at e
        subst e
        have memC : ∀ x, x ∈ ext ++ [v] ↔ x ∈ ext ∨ x = v := fun x => by simp
        -- successors of the segment
        have hclosed : ∀ x ∈ ext ++ [v], ∀ y ∈ succ x, y ∈ ext ++ [v] ∨ Done s1 y := by
          intro x hx y hy
          have hvisy : Vis s1 y := by
            rcases (memC x).1 hx with hx1 | rfl
            · refine L.inv.black x (hext x hx1) ?_ y hy
              rintro (rfl | hxg)
              · exact hvext hx1
              · have := (List.nodup_append.1 hnd).2.2 x hx1 x (by simp [h.gsub x hxg]); exact this rfl
            · exact (L.proc y hy).1
          rcases (L.inv.vis y).1 hvisy with hys | hyd
          · rw [L.stk] at hys
            rcases List.mem_append.1 hys with h1 | h1
            · exact .inl ((memC y).2 (.inl h1))
            · rcases List.mem_cons.1 h1 with h2 | h2
              · exact .inl ((memC y).2 (.inr h2))
              · exfalso
                have hle : lv ≤ num1 y := by
                  rcases (memC x).1 hx with hx1 | rfl
                  · exact L.big x hx1 y hy h2
                  · exact (L.proc y hy).2 h2
                have := hnl y h2; omega
          · exact .inr hyd
        have hreach : ∀ x ∈ ext ++ [v], ∀ y, Reach succ x y → y ∈ ext ++ [v] ∨ Done s1 y := by
          intro x hx y hr
          induction hr with
          | refl => exact .inl hx
          | tail _ st ih =>
            rcases ih with h1 | h1
            · exact hclosed _ h1 _ st
            · exact .inr (L.inv.ordered.closed h1 (.single st))
        refine ⟨num1, [], lv, ⟨⟨?_, ?_, ?_, ?_, ?_, ?_, ?_, ?_, ?_, ?_, ?_, ?_, ?_, ?_⟩, hnum', L.same, by simp, ?_, L.t, L.low,
          by simp, fun _ => hroot, by simp, L.reach⟩⟩
        · intro x
          have := L.inv.vis x
          simp only [Vis, Done, L.stk] at this ⊢
          rw [this]
          simp only [List.mem_append, List.mem_cons, List.not_mem_nil, or_false]
          constructor
          · rintro ((h1 | h1 | h1) | ⟨c, h1, h2⟩)
            · exact .inr ⟨ext ++ [v], .inr rfl, by simp [h1]⟩
            · exact .inr ⟨ext ++ [v], .inr rfl, by simp [h1]⟩
            · exact .inl h1
            · exact .inr ⟨c, .inl h1, h2⟩
          · rintro (h1 | ⟨c, h1 | rfl, h2⟩)
            · exact .inl (.inr (.inr h1))
            · exact .inr ⟨c, h1, h2⟩
            · rcases (memC x).1 h2 with h2 | h2
              · exact .inl (.inl h2)
              · exact .inl (.inr (.inl h2))
        · rintro x hx ⟨c, hc, hxc⟩
          rcases List.mem_append.1 hc with hc | hc
          · exact L.inv.disj x (hold x hx) ⟨c, hc, hxc⟩
          · simp only [List.mem_singleton] at hc; subst hc
            rcases (memC x).1 hxc with h1 | h1
            · have := (List.nodup_append.1 hnd).2.2 x h1 x (by simp [hx]); exact this rfl
            · exact hne x hx h1
        · refine List.pairwise_append.2 ⟨L.inv.comps, by simp, fun a ha b hb x hxa hxb => ?_⟩
          simp only [List.mem_singleton] at hb; subst hb
          refine L.inv.disj x ?_ ⟨a, ha, hxa⟩
          rcases (memC x).1 hxb with h1 | rfl
          · exact hext x h1
          · exact hvst
        · intro c hc
          rcases List.mem_append.1 hc with hc | hc
          · exact L.inv.compnd c hc
          · simp only [List.mem_singleton] at hc; subst hc
            refine ⟨by simp, ?_⟩
            have := hnd
            rw [List.nodup_append] at this ⊢
            exact ⟨this.1, by simp, fun a ha b hb => by
              simp only [List.mem_singleton] at hb; subst hb; rintro rfl; exact hvext ha⟩
        · exact htr'
        · have := L.inv.sorted
          rw [L.stk] at this
          exact (List.pairwise_cons.1 (List.pairwise_append.1 this).2.1).2
        · intro x hx; exact L.inv.le x (hold x hx)
        · intro x hx l hxl
          obtain ⟨h1, y, hy, h2, h3⟩ := L.inv.low x (hold x hx) l hxl
          refine ⟨h1, y, ?_, h2, h3⟩
          rw [L.stk] at hy
          have hnx := hnl x hx
          rcases List.mem_append.1 hy with hy | hy
          · have := L.numext y hy; omega
          · rcases List.mem_cons.1 hy with rfl | hy
            · rw [L.numv] at h2; omega
            · exact hy
        · -- ordered
          intro l1 c l2 hsplit x hx y hy
          rcases List.eq_nil_or_concat l2 with rfl | ⟨l2', c2, rfl⟩
          · have := List.append_inj' hsplit rfl
            obtain ⟨e1, e2⟩ := this
            simp only [List.cons.injEq, and_true] at e2
            subst e1; subst e2
            rcases hclosed x hx y hy with h1 | ⟨c', h1, h2⟩
            · exact .inl h1
            · exact .inr ⟨c', h1, h2⟩
          · have hs2 : s1.out ++ [ext ++ [v]] = (l1 ++ c :: l2') ++ [c2] := by
              have := hsplit; simp only at this; rw [this]; simp
            have := (List.append_inj' hs2 rfl).1
            exact L.inv.ordered l1 c l2' this x hx y hy
        · intro c hc x hx y
          rcases List.mem_append.1 hc with hc | hc
          · exact L.inv.scc c hc x hx y
          · simp only [List.mem_singleton] at hc; subst hc
            have conn : ∀ a ∈ ext ++ [v], Reach succ v a ∧ Reach succ a v := by
              intro a ha
              rcases (memC a).1 ha with h1 | rfl
              · exact ⟨fromV a h1, toV a (hext a h1)⟩
              · exact ⟨.refl, .refl⟩
            constructor
            · intro hy; exact ⟨(conn x hx).2.trans (conn y hy).1, (conn y hy).2.trans (conn x hx).1⟩
            · rintro ⟨h1, h2⟩
              rcases hreach x hx y h1 with h3 | h3
              · exact h3
              · exfalso
                have := L.inv.ordered.closed h3 h2
                refine L.inv.disj x ?_ this
                rcases (memC x).1 hx with h4 | rfl
                · exact hext x h4
                · exact hvst
        · intro x hx y hy hxy; exact L.inv.up x (hold x hx) y (hold y hy) hxy
        · intro x hx; exact h.gr x hx
        · exact h.gsub
        · intro x hx hxg y hy
          exact L.inv.black x (hold x hx) (by rintro (rfl | h1); exacts [hvs hx, hxg h1]) y hy
        · exact L.out.trans (List.prefix_append _ _)
      · rw [if_neg hroot] at e
        simp only [Option.some.injEq] at e
        subst e
        -- v reaches an older stack node
        have hylold : ylow ∈ s.stack := by
          rw [L.stk] at hyl
          rw [L.numv] at hlv1
          rcases List.mem_append.1 hyl with h1 | h1
          · have := L.numext ylow h1; omega
          · rcases List.mem_cons.1 h1 with rfl | h1
            · rw [L.numv] at hyl2; omega
            · exact h1
        refine ⟨num1, ext ++ [v], lv, ⟨⟨L.inv.vis, L.inv.disj, L.inv.comps, L.inv.compnd, L.inv.trail, L.inv.sorted,
          L.inv.le, L.inv.low, L.inv.ordered, L.inv.scc, L.inv.up, ?_, ?_, ?_⟩, hnum', L.same, by simp [L.stk],
          L.out, L.t, L.low, ?_, by simp, ?_, L.reach⟩⟩
        · intro x hx
          obtain ⟨g, hg1, hg2⟩ := h.gr ylow hylold
          exact ⟨g, hg1, (toV x hx).trans (hyl3.trans hg2)⟩
        · intro g hg'; exact hold g (h.gsub g hg')
        · intro x hx hxg y hy
          by_cases hxv : x = v
          · subst hxv; exact (L.proc y hy).1
          · exact L.inv.black x hx (by rintro (h1 | h1); exacts [hxv h1, hxg h1]) y hy
        · intro x hx y hy hys
          rw [← hnum' y hys]
          rcases List.mem_append.1 hx with h1 | h1
          · exact L.big x h1 y hy hys
          · simp only [List.mem_singleton] at h1; subst h1
            exact (L.proc y hy).2 hys
        · intro x hx
          rcases List.mem_append.1 hx with h1 | h1
          · have := L.numext x h1; omega
          · simp only [List.mem_singleton] at h1; subst h1; rw [L.numv]; omega

theorem roots_spec {f : Nat} : ∀ vs num s s', Inv succ num ∅ s → roots succ f vs s = some s' →
    (∃ num', Inv succ num' ∅ s') ∧ (∀ x, Vis s x → Vis s' x) ∧ (∀ v ∈ vs, Vis s' v) ∧
    ∀ x, Vis s' x → Vis s x ∨ ∃ v ∈ vs, Reach succ v x := by
  intro vs
  induction vs with
  | nil =>
    intro num s s' h e
    simp only [roots, Option.some.injEq] at e; subst e
    exact ⟨⟨num, h⟩, fun _ h => h, by simp, fun _ h => .inl h⟩
  | cons v vs ih =>
    intro num s s' h e
    rw [roots] at e
    cases hl : s.lowest v with
    | none =>
      simp only [hl] at e
      cases hd : dfs succ f v s with
      | none => simp [hd] at e
      | some s1 =>
        simp only [hd] at e
        obtain ⟨num1, ext, lv, p⟩ := dfs_spec f num ∅ v s s1 h hl (by simp) hd
        obtain ⟨i1, i2, i3, i4⟩ := ih num1 s1 s' p.inv e
        have hv1 : ∀ x, Vis s x → Vis s1 x := fun x hx => by simpa [Vis, p.same x hx] using hx
        refine ⟨i1, fun x hx => i2 x (hv1 x hx), fun w hw => ?_, fun x hx => ?_⟩
        · rcases List.mem_cons.1 hw with rfl | hw
          · exact i2 _ (by simp [Vis, p.low])
          · exact i3 w hw
        · rcases i4 x hx with h1 | ⟨w, hw, h1⟩
          · rcases p.reach x h1 with h2 | h2
            · exact .inl h2
            · exact .inr ⟨v, by simp, h2⟩
          · exact .inr ⟨w, by simp [hw], h1⟩
    | some l =>
      simp only [hl] at e
      obtain ⟨i1, i2, i3, i4⟩ := ih num s s' h e
      refine ⟨i1, i2, fun w hw => ?_, fun x hx => ?_⟩
      · rcases List.mem_cons.1 hw with rfl | hw
        · exact i2 _ (by simp [Vis, hl])
        · exact i3 w hw
      · rcases i4 x hx with h1 | ⟨w, hw, h1⟩
        · exact .inl h1
        · exact .inr ⟨w, by simp [hw], h1⟩

theorem init_inv : Inv succ (fun _ => 0) ∅ ⟨fun _ => none, [], ∅, 0, []⟩ := by
  constructor <;> simp [Vis, Done, Ordered]

theorem tarjan_inv {f : Nat} {rs : List α} {out} (e : tarjan succ f rs = some out) :
    ∃ num s, Inv succ num ∅ s ∧ s.out = out ∧ s.stack = [] ∧ (∀ x, Vis s x ↔ Done s x) ∧ (∀ v ∈ rs, Vis s v) ∧
      ∀ x, Vis s x → ∃ v ∈ rs, Reach succ v x := by
  unfold tarjan at e
  rw [Option.map_eq_some_iff] at e
  obtain ⟨s, e, rfl⟩ := e
  obtain ⟨⟨num, h⟩, _, h3, h4⟩ := roots_spec rs _ _ s init_inv e
  have hst : s.stack = [] := by
    cases hs : s.stack with
    | nil => rfl
    | cons a l => obtain ⟨g, hg, _⟩ := h.gr a (by simp [hs]); simp at hg
  refine ⟨num, s, h, rfl, hst, fun x => by rw [h.vis x, hst]; simp, h3, fun x hx => ?_⟩
  rcases h4 x hx with h5 | h5
  · simp [Vis] at h5
  · exact h5

/-! ### Property C40 -/

/-- The components partition the nodes reachable from the roots. -/
theorem C40_partition {f : Nat} {rs : List α} {out} (e : tarjan succ f rs = some out) :
    (∀ x, (∃ c ∈ out, x ∈ c) ↔ ∃ v ∈ rs, Reach succ v x) ∧ out.Pairwise (fun a b => ∀ x ∈ a, x ∉ b) ∧
    ∀ c ∈ out, c ≠ [] ∧ c.Nodup := by
  obtain ⟨num, s, h, rfl, _, hv, hr, hr'⟩ := tarjan_inv e
  refine ⟨fun x => ⟨fun hx => hr' x ((hv x).2 hx), ?_⟩, h.comps, h.compnd⟩
  rintro ⟨v, hvr, hx⟩
  exact h.ordered.closed ((hv v).1 (hr v hvr)) hx

/-- Two nodes are in the same component exactly if each reaches the other. -/
theorem C40_scc {f : Nat} {rs : List α} {out} (e : tarjan succ f rs = some out) {c} (hc : c ∈ out) {x y : α}
    (hx : x ∈ c) : y ∈ c ↔ Reach succ x y ∧ Reach succ y x := by
  obtain ⟨num, s, h, rfl, _⟩ := tarjan_inv e
  exact h.scc c hc x hx y

/-- Components come out in dependency order: whatever a member of a component reaches lies in that component
or in one emitted before. -/
theorem C40_order {f : Nat} {rs : List α} {out} (e : tarjan succ f rs = some out) {l1 l2 : List (List α)} {c}
    (hsplit : out = l1 ++ c :: l2) {x y : α} (hx : x ∈ c) (hr : Reach succ x y) : y ∈ c ∨ ∃ c' ∈ l1, y ∈ c' := by
  obtain ⟨num, s, h, rfl, _⟩ := tarjan_inv e
  have : Ordered succ (l1 ++ [c]) := by
    intro a1 b a2 hab
    have : s.out = a1 ++ b :: (a2 ++ l2) := by
      rw [hsplit, show l1 ++ c :: l2 = (l1 ++ [c]) ++ l2 by simp, hab]; simp
    exact h.ordered a1 b _ this
  obtain ⟨c', hc', hy⟩ := this.closed ⟨c, by simp, hx⟩ hr
  rcases List.mem_append.1 hc' with h1 | h1
  · exact .inr ⟨c', h1, hy⟩
  · simp only [List.mem_singleton] at h1; subst h1; exact .inl hy

/-! ### Termination -/

/-- number of unvisited nodes of `U` -/
def white (U : Finset α) (s : TS α) : Nat := (U.filter fun x => s.lowest x = none).card

theorem white_le {U : Finset α} {s s' : TS α} (h : ∀ x, Vis s x → Vis s' x) : white U s' ≤ white U s := by
  refine Finset.card_le_card fun x => ?_
  simp only [Finset.mem_filter]
  rintro ⟨h1, h2⟩
  refine ⟨h1, ?_⟩
  by_contra h3
  exact h x h3 h2

theorem loop_vis {rec : α → TS α → Option (TS α)} (hrec : ∀ w s s', rec w s = some s' → ∀ x, Vis s x → Vis s' x) {v} :
    ∀ ws s s', loop rec v ws s = some s' → ∀ x, Vis s x → Vis s' x := by
  have hrel : ∀ (s s' : TS α) w, s.relax v w = some s' → ∀ x, Vis s x → Vis s' x := by
    intro s s' w e x hx
    unfold TS.relax at e
    split at e
    · simp only [Option.some.injEq] at e; subst e
      simp only [Vis]; split
      · simp
      · exact hx
    · simp at e
  intro ws
  induction ws with
  | nil => intro s s' e x hx; simp [loop] at e; subst e; exact hx
  | cons w ws ih =>
    intro s s' e x hx
    rw [loop] at e
    cases hl : s.lowest w with
    | none =>
      simp only [hl] at e
      cases hd : rec w s with
      | none => simp [hd] at e
      | some s1 =>
        simp only [hd] at e
        cases hr : s1.relax v w with
        | none => simp [hr] at e
        | some s2 =>
          simp only [hr] at e
          exact ih _ _ e x (hrel _ _ _ hr x (hrec _ _ _ hd x hx))
    | some l =>
      simp only [hl] at e
      split at e
      · cases hr : s.relax v w with
        | none => simp [hr] at e
        | some s2 => simp only [hr] at e; exact ih _ _ e x (hrel _ _ _ hr x hx)
      · exact ih _ _ e x hx

theorem dfs_vis : ∀ f v (s s' : TS α), dfs succ f v s = some s' → ∀ x, Vis s x → Vis s' x := by
  intro f
  induction f with
  | zero => intro v s s' e; simp [dfs] at e
  | succ f ih =>
    intro v s s' e x hx
    rw [dfs] at e
    cases hl : loop (dfs succ f) v (succ v) (s.push v) with
    | none => simp [hl] at e
    | some s1 =>
      have h1 : Vis s1 x := loop_vis (fun w s s' => ih w s s') _ _ _ hl x (by
        simp only [Vis, TS.push]; split
        · simp
        · exact hx)
      simp only [hl] at e
      split at e
      · cases hp : popTo v s1.stack s1.trail [] with
        | none => simp [hp] at e
        | some q => obtain ⟨a, b, c⟩ := q; simp only [hp, Option.some.injEq] at e; subst e; exact h1
      · simp only [Option.some.injEq] at e; subst e; exact h1

theorem loop_total {U : Finset α} {f : Nat} (hU : ∀ x ∈ U, ∀ y ∈ succ x, y ∈ U) (hv0 : s0.lowest v = none)
    (hg : ∀ g ∈ gray, Reach succ g v) (hvU : v ∈ U)
    (hf : ∀ num gray w (s : TS α), Inv succ num gray s → s.lowest w = none → (∀ g ∈ gray, Reach succ g w) → w ∈ U →
      white U s ≤ f → dfs succ f w s ≠ none) :
    ∀ ws P s num ext lv, (∀ w ∈ ws, w ∈ succ v) → LInv succ num gray v s0 s ext lv P → white U s ≤ f →
      loop (dfs succ f) v ws s ≠ none := by
  intro ws
  induction ws with
  | nil => intro P s num ext lv _ h _; simp [loop]
  | cons w ws ih =>
    intro P s num ext lv hws h hwf
    have hw : w ∈ succ v := hws w (by simp)
    -- one iteration succeeds
    have one : ∃ s2, loop (dfs succ f) v [w] s = some s2 ∧
        loop (dfs succ f) v (w :: ws) s = loop (dfs succ f) v ws s2 := by
      simp only [loop]
      cases hl : s.lowest w with
      | none =>
        have hgw : ∀ g ∈ insert v gray, Reach succ g w := by
          rintro g (rfl | hg')
          · exact .single hw
          · exact (hg g hg').tail hw
        have hne := hf num (insert v gray) w s h.inv hl hgw (hU v hvU w hw) hwf
        cases hd : dfs succ f w s with
        | none => exact absurd hd hne
        | some s1 =>
          obtain ⟨num1, ext1, lw, p⟩ := dfs_spec f num (insert v gray) w s s1 h.inv hl hgw hd
          have hvv : Vis s v := by simp [Vis, h.low]
          simp [TS.relax, p.same v hvv, h.low, p.low]
      | some lw =>
        by_cases htr : w ∈ s.trail
        · simp [htr, TS.relax, h.low, hl]
        · simp [htr]
    obtain ⟨s2, e1, e2⟩ := one
    rw [e2]
    obtain ⟨num2, ext2, lv2, L2, _⟩ := loop_spec hv0 hg (fun num gray w s s' => dfs_spec f num gray w s s') [w] P s num ext lv
      (fun w' hw' => by simp at hw'; subst hw'; exact hw) h s2 e1
    exact ih _ _ _ _ _ (fun w hw => hws w (by simp [hw])) L2
      (le_trans (white_le (loop_vis (fun w s s' => dfs_vis f w s s') _ _ _ e1)) hwf)

theorem dfs_total {U : Finset α} (hU : ∀ x ∈ U, ∀ y ∈ succ x, y ∈ U) : ∀ f num gray v (s : TS α), Inv succ num gray s →
    s.lowest v = none → (∀ g ∈ gray, Reach succ g v) → v ∈ U → white U s ≤ f → dfs succ f v s ≠ none := by
  intro f
  induction f with
  | zero =>
    intro num gray v s _ hv _ hvU hw
    have : 0 < white U s := Finset.card_pos.2 ⟨v, by simp [hvU, hv]⟩
    omega
  | succ f ih =>
    intro num gray v s h hv hg hvU hw
    have hL : LInv succ (fun x => if x = v then s.t + 1 else num x) gray v s (s.push v) [] (s.t + 1) [] := by
      refine ⟨push_inv h hv hg, by simp, rfl, List.prefix_refl _, by simp [TS.push], ?_, by simp [TS.push],
        by simp, by simp, by simp, ?_⟩
      · intro x hx
        have hxv : x ≠ v := fun e => by subst e; exact hx hv
        simp [TS.push, hxv]
      · intro x hx
        simp only [Vis, TS.push] at hx
        split at hx
        · rename_i e; subst e; exact .inr .refl
        · exact .inl hx
    have hwp : white U (s.push v) ≤ f := by
      have hlt : white U (s.push v) < white U s := by
        refine Finset.card_lt_card ⟨fun x => ?_, fun hsub => ?_⟩
        · intro hx
          obtain ⟨h1, h2⟩ := Finset.mem_filter.1 hx
          refine Finset.mem_filter.2 ?_
          simp only [TS.push] at h2
          split at h2
          · simp at h2
          · exact ⟨h1, h2⟩
        · have := hsub (show v ∈ U.filter (fun x => s.lowest x = none) by simp [hvU, hv])
          have := (Finset.mem_filter.1 this).2
          simp [TS.push] at this
      omega
    have hne := loop_total hU hv hg hvU ih (succ v) [] (s.push v) _ [] _ (fun w hw => hw) hL hwp
    rw [dfs]
    cases hl : loop (dfs succ f) v (succ v) (s.push v) with
    | none => exact absurd hl hne
    | some s1 =>
      obtain ⟨num1, ext, lv, L, _⟩ := loop_spec hv hg (fun num gray w s s' => dfs_spec f num gray w s s') (succ v) []
        (s.push v) _ [] _ (fun w hw => hw) hL s1 hl
      simp only
      split
      · have hnd := sorted_nodup L.inv.sorted
        rw [L.stk] at hnd
        have hvext : v ∉ ext := fun hm => by
          have := (List.nodup_append.1 hnd).2.2 v hm v (by simp); exact this rfl
        obtain ⟨tr', hp, _⟩ := popTo_spec ext s1.trail [] hvext hnd (fun x => by rw [L.inv.trail, L.stk])
        rw [L.stk, hp]; simp
      · simp

/-- On every finite graph the algorithm terminates without raising (`U`: a finite set of nodes containing the
roots and closed under successors). -/
theorem C40_terminates {U : Finset α} (hU : ∀ x ∈ U, ∀ y ∈ succ x, y ∈ U) {rs : List α} (hr : ∀ v ∈ rs, v ∈ U) :
    ∀ f ≥ U.card, tarjan succ f rs ≠ none := by
  intro f hf
  unfold tarjan
  simp only [ne_eq, Option.map_eq_none_iff]
  have : ∀ vs num (s : TS α), (∀ v ∈ vs, v ∈ U) → Inv succ num ∅ s → roots succ f vs s ≠ none := by
    intro vs
    induction vs with
    | nil => intro num s _ _; simp [roots]
    | cons v vs ih =>
      intro num s hv h
      rw [roots]
      cases hl : s.lowest v with
      | some l => exact ih num s (fun v h => hv v (by simp [h])) h
      | none =>
        have hne := dfs_total hU f num ∅ v s h hl (by simp) (hv v (by simp))
          (le_trans (Finset.card_filter_le _ _) hf)
        cases hd : dfs succ f v s with
        | none => exact absurd hd hne
        | some s1 =>
          obtain ⟨num1, ext, lv, p⟩ := dfs_spec f num ∅ v s s1 h hl (by simp) hd
          exact ih num1 s1 (fun v h => hv v (by simp [h])) p.inv
  exact this rs _ _ hr init_inv

theorem compOf_eq {f : Nat} {rs : List α} {out} (e : tarjan succ f rs = some out) {x : α} {c : List α} :
    compOf out x = some c ↔ c ∈ out ∧ x ∈ c := by
  obtain ⟨_, hd, _⟩ := C40_partition e
  unfold compOf
  constructor
  · intro h
    have h1 := List.mem_of_find?_eq_some h
    have h2 := List.find?_some h
    exact ⟨by simpa using h1, by simpa using h2⟩
  · rintro ⟨hc, hx⟩
    cases h : out.reverse.find? (fun c => c.contains x) with
    | none =>
      rw [List.find?_eq_none] at h
      exact absurd (by simpa using hx) (h c (by simpa using hc))
    | some c' =>
      have h1 : c' ∈ out := by simpa using List.mem_of_find?_eq_some h
      have h2 : x ∈ c' := by simpa using List.find?_some h
      congr 1
      exact List.ext_getElem? fun i => by
        have : c' = c := by
          by_contra hne
          have := (List.Pairwise.forall_of_forall_of_flip (R := fun a b => a ≠ b → ∀ x ∈ a, x ∉ b) (l := out)
            (fun _ _ h => absurd rfl h) (hd.imp fun {a b} h (_ : a ≠ b) => h)
            (hd.imp fun {a b} h (_ : b ≠ a) x hb ha => h x ha hb)) h1 hc hne x h2
          exact this hx
        rw [this]

/-- The condensation has an edge between two components exactly if they differ and some node of the graph in
the first has a successor in the second. -/
theorem C40_condensation {f : Nat} {rs nodes : List α} {out} (e : tarjan succ f rs = some out) {X Y : List α} :
    (X, Y) ∈ condEdges succ nodes out ↔
      X ∈ out ∧ Y ∈ out ∧ X ≠ Y ∧ ∃ x ∈ nodes, x ∈ X ∧ ∃ y ∈ succ x, y ∈ Y := by
  unfold condEdges
  simp only [List.mem_flatMap]
  constructor
  · rintro ⟨x, hx, h⟩
    cases hX : compOf out x with
    | none => simp [hX] at h
    | some X' =>
      simp only [hX, List.mem_flatMap] at h
      obtain ⟨y, hy, h⟩ := h
      by_cases hc : X'.contains y = true
      · rw [if_pos hc] at h; simp at h
      · rw [if_neg hc] at h
        cases hY : compOf out y with
        | none => simp [hY] at h
        | some Y' =>
          simp only [hY, List.mem_singleton, Prod.mk.injEq] at h
          obtain ⟨rfl, rfl⟩ := h
          have h1 := (compOf_eq e).1 hX
          have h2 := (compOf_eq e).1 hY
          refine ⟨h1.1, h2.1, ?_, x, hx, h1.2, y, hy, h2.2⟩
          rintro rfl; exact hc (by simpa using h2.2)
  · rintro ⟨hX, hY, hne, x, hx, hxX, y, hy, hyY⟩
    have h1 := (compOf_eq e).2 ⟨hX, hxX⟩
    have h2 := (compOf_eq e).2 ⟨hY, hyY⟩
    refine ⟨x, hx, ?_⟩
    simp only [h1, List.mem_flatMap]
    refine ⟨y, hy, ?_⟩
    have : ¬ X.contains y = true := by
      intro hc
      have h3 := (compOf_eq e).2 ⟨hX, by simpa using hc⟩
      rw [h3] at h2; simp at h2; exact hne h2
    rw [if_neg this, h2]; simp

/-- The condensation is acyclic, and the order in which the components are listed is topological: every edge
goes to a component listed earlier. -/
theorem C40_acyclic {f : Nat} {rs nodes : List α} {out} (e : tarjan succ f rs = some out) {l1 l2 : List (List α)} {X Y}
    (hsplit : out = l1 ++ X :: l2) (h : (X, Y) ∈ condEdges succ nodes out) : Y ∈ l1 := by
  obtain ⟨hX, hY, hne, x, _, hx, y, hy, hyY⟩ := (C40_condensation e).1 h
  rcases C40_order e hsplit hx (.single hy) with h1 | ⟨c', h1, h2⟩
  · have a := (compOf_eq e).2 ⟨hX, h1⟩
    have b := (compOf_eq e).2 ⟨hY, hyY⟩
    rw [a] at b; simp at b; exact absurd b hne
  · have a := (compOf_eq e).2 ⟨show c' ∈ out by rw [hsplit]; simp [h1], h2⟩
    have b := (compOf_eq e).2 ⟨hY, hyY⟩
    rw [a] at b; simp at b; subst b; exact h1

-- a graph with a non-trivial component and a dependency
example : tarjan (fun x : Nat => match x with | 0 => [1, 3] | 1 => [2] | 2 => [0] | 3 => [3] | _ => []) 10 [0, 1, 2, 3, 4] =
    some [[3], [2, 1, 0], [4]] := by decide

end Tarjan
end Verif
