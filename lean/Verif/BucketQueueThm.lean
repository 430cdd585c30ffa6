/-
Property C21: `BucketQueue` is a priority queue.
-/
import Verif.BucketQueue
import Mathlib.Order.Lattice
import Mathlib.Data.List.Perm.Basic
import Mathlib.Data.Set.Card

set_option linter.unusedSectionVars false
set_option linter.unusedSimpArgs false

namespace Verif
namespace BQ
variable {α : Type*} [DecidableEq α]

/-! ### Specification -/

/-- What a client does to a queue; a pop records the observed result. -/
inductive Op (α : Type*)
  | put (x : α) (p : Int)
  | del (x : α)
  | pop (r : Option (α × Int))

/-- The abstract content of a queue: which priority each item has. -/
abbrev Content (α : Type*) := α → Option Int

/-- Effect of an operation on the abstract content. -/
def Content.apply (m : Content α) : Op α → Content α
  | .put x p => fun y => if y = x then some p else m y
  | .del x => fun y => if y = x then none else m y
  | .pop (some (x, _)) => fun y => if y = x then none else m y
  | .pop none => m

/-- Running one client operation on the model (`pick` is the arbitrary choice inside a bucket). -/
inductive Step : BQ α → Op α → BQ α → Prop
  | put {q x p q'} : q.setitem x p = .ok q' → Step q (.put x p) q'
  | del {q x q'} : q.delitem x = .ok q' → Step q (.del x) q'
  | pop {q fuel pick r q'} :
      (∀ l x, pick l = some x → x ∈ l) → (∀ l, l ≠ [] → (pick l).isSome) →
      popitem fuel pick q = some (.ok (r, q')) → Step q (.pop r) q'

/-- A history of operations from the empty queue. -/
inductive Run : List (Op α) → BQ α → Prop
  | nil : Run [] empty
  | snoc {h q o q'} : Run h q → Step q o q' → Run (h ++ [o]) q'

/-- The abstract content after a history. -/
def contentOf (h : List (Op α)) : Content α := List.foldl Content.apply (fun _ => none : Content α) h

/-! ### Invariant -/

/-- Representation invariant. -/
structure Inv (q : BQ α) : Prop where
  wfD : q.D.WF
  wfQ : q.Q.WF
  ne : ∀ p b, q.Q.get p = some b → b ≠ []
  nd : ∀ p b, q.Q.get p = some b → b.Nodup
  agree : ∀ x p, q.D.get x = some p ↔ ∃ b, q.Q.get p = some b ∧ x ∈ b
  low : ∀ p b, q.Q.get p = some b → ∃ n, q.N = some n ∧ n ≤ p

theorem Inv.empty : Inv (BQ.empty : BQ α) := by
  refine ⟨Dict.WF.nil, Dict.WF.nil, ?_, ?_, ?_, ?_⟩ <;> simp [BQ.empty]

theorem Inv.mono_N {q : BQ α} (h : Inv q) (n : Int) (hn : ∀ p b, q.Q.get p = some b → n ≤ p) :
    Inv (⟨q.D, q.Q, some n⟩ : BQ α) :=
  ⟨h.wfD, h.wfQ, h.ne, h.nd, h.agree, fun p b hb => ⟨n, rfl, hn p b hb⟩⟩

theorem delitem_spec {q : BQ α} (h : Inv q) {x : α} {p : Int} (hx : q.D.get x = some p) :
    ∃ q', q.delitem x = .ok q' ∧ Inv q' ∧ q'.N = q.N ∧ q'.D = q.D.del x ∧
      (∀ p' b, q'.Q.get p' = some b → ∃ b0, q.Q.get p' = some b0) := by
  obtain ⟨b, hb, hxb⟩ := (h.agree x p).1 hx
  have hbnd := h.nd p b hb
  unfold delitem
  simp only [hx, hb, hxb, if_true]
  by_cases he : b.erase x = []
  · simp only [he, if_true]
    refine ⟨_, rfl, ⟨h.wfD.del x, (h.wfQ.set p _).del p, ?_, ?_, ?_, ?_⟩, rfl, rfl, ?_⟩
    · intro p' b' hb'
      simp only [Dict.get_del, Dict.get_set] at hb'
      split at hb' <;> simp_all
      exact h.ne _ _ hb'
    · intro p' b' hb'
      simp only [Dict.get_del, Dict.get_set] at hb'
      split at hb' <;> simp_all
      exact h.nd _ _ hb'
    · intro y p'
      simp only [Dict.get_del, Dict.get_set]
      have hb1 : b = [x] := by
        have : b.length = 1 := by
          have := List.length_erase_of_mem hxb; rw [he] at this; simp at this
          have : 0 < b.length := List.length_pos_of_mem hxb
          omega
        obtain ⟨z, hz⟩ := List.length_eq_one_iff.1 this
        rw [hz] at hxb ⊢; simp at hxb; rw [hxb]
      by_cases hy : x = y
      · subst hy
        simp only [if_true]
        constructor
        · intro hh; cases hh
        · rintro ⟨b', hb', hxb'⟩
          split at hb'
          · cases hb'
          · rename_i hpp
            have := (h.agree x p').2 ⟨b', hb', hxb'⟩
            rw [hx] at this; cases this; exact absurd rfl hpp
      · simp only [hy, if_false]
        rw [h.agree y p']
        by_cases hpp : p = p'
        · subst hpp
          simp only [if_true]
          constructor
          · rintro ⟨b', hb', hyb'⟩
            rw [hb] at hb'; cases hb'; rw [hb1] at hyb'; simp at hyb'; exact absurd hyb'.symm hy
          · rintro ⟨b', hb', _⟩; cases hb'
        · simp [hpp]
    · intro p' b' hb'
      simp only [Dict.get_del, Dict.get_set] at hb'
      split at hb'
      · cases hb'
      · rename_i hpp; exact h.low _ _ hb'
    · intro p' b' hb'
      simp only [Dict.get_del, Dict.get_set] at hb'
      split at hb'
      · cases hb'
      · rename_i hpp; exact ⟨_, hb'⟩
  · simp only [he, if_false]
    refine ⟨_, rfl, ⟨h.wfD.del x, h.wfQ.set p _, ?_, ?_, ?_, ?_⟩, rfl, rfl, ?_⟩
    · intro p' b' hb'
      simp only [Dict.get_set] at hb'
      split at hb'
      · cases hb'; exact he
      · exact h.ne _ _ hb'
    · intro p' b' hb'
      simp only [Dict.get_set] at hb'
      split at hb'
      · cases hb'; exact hbnd.erase x
      · exact h.nd _ _ hb'
    · intro y p'
      simp only [Dict.get_del, Dict.get_set]
      by_cases hy : x = y
      · subst hy
        simp only [if_true]
        constructor
        · intro hh; cases hh
        · rintro ⟨b', hb', hxb'⟩
          split at hb'
          · cases hb'; rw [hbnd.mem_erase_iff] at hxb'; exact absurd rfl hxb'.1
          · rename_i hpp
            have := (h.agree x p').2 ⟨b', hb', hxb'⟩
            rw [hx] at this; cases this; exact absurd rfl hpp
      · simp only [hy, if_false]
        rw [h.agree y p']
        by_cases hpp : p = p'
        · subst hpp
          simp only [if_true]
          constructor
          · rintro ⟨b', hb', hyb'⟩
            rw [hb] at hb'; cases hb'
            exact ⟨_, rfl, by rw [hbnd.mem_erase_iff]; exact ⟨Ne.symm hy, hyb'⟩⟩
          · rintro ⟨b', hb', hyb'⟩
            cases hb'; rw [hbnd.mem_erase_iff] at hyb'; exact ⟨b, hb, hyb'.2⟩
        · simp [hpp]
    · intro p' b' hb'
      simp only [Dict.get_set] at hb'
      split at hb'
      · rename_i hpp; subst hpp; exact h.low _ _ hb
      · exact h.low _ _ hb'
    · intro p' b' hb'
      simp only [Dict.get_set] at hb'
      split at hb'
      · rename_i hpp; subst hpp; exact ⟨_, hb⟩
      · exact ⟨_, hb'⟩

theorem setitem_new {q : BQ α} (h : Inv q) {x : α} (hx : q.D.get x = none) (p : Int) :
    ∃ q', q.insertNew x p = .ok q' ∧ Inv q' ∧ q'.D = q.D.set x p := by
  have hN : ∃ n, bump q.Q q.N p = Except.ok n ∧
      n ≤ p ∧ ∀ p' b, q.Q.get p' = some b → n ≤ p' := by
    by_cases hQ : q.Q = []
    · exact ⟨p, by simp [bump, hQ], le_refl _, by simp [hQ]⟩
    · obtain ⟨⟨p0, b0⟩, hpb⟩ := List.exists_mem_of_ne_nil _ hQ
      obtain ⟨n, hn, _⟩ := h.low p0 b0 (Dict.get_of_mem h.wfQ hpb)
      by_cases hlt : p < n
      · refine ⟨p, by simp [bump, hQ, hn, hlt], le_refl _, fun p' b hb => ?_⟩
        obtain ⟨n', hn', hle⟩ := h.low p' b hb
        rw [hn] at hn'; cases hn'; omega
      · refine ⟨n, by simp [bump, hQ, hn, hlt], by omega, fun p' b hb => ?_⟩
        obtain ⟨n', hn', hle⟩ := h.low p' b hb
        rw [hn] at hn'; cases hn'; exact hle
  obtain ⟨n, hn, hnp, hlow⟩ := hN
  set Q0 := if (q.Q.get p).isSome then q.Q else q.Q.set p [] with hQ0
  have hb0 : Q0.get p = some ((q.Q.get p).getD []) := by
    rw [hQ0]; cases hg : q.Q.get p with
    | none => simp [Dict.get_set]
    | some b => simp [hg]
  have hother : ∀ p', p ≠ p' → Q0.get p' = q.Q.get p' := by
    intro p' hp'; rw [hQ0]; split
    · rfl
    · simp [Dict.get_set, hp']
  have hwf : Q0.WF := by rw [hQ0]; split; exacts [h.wfQ, h.wfQ.set _ _]
  have hxb : x ∉ (q.Q.get p).getD [] := by
    intro hmem
    cases hg : q.Q.get p with
    | none => simp [hg] at hmem
    | some b =>
      simp [hg] at hmem
      have := (h.agree x p).2 ⟨b, hg, hmem⟩
      rw [hx] at this; cases this
  refine ⟨⟨q.D.set x p, Q0.set p ((q.Q.get p).getD [] ++ [x]), some n⟩, ?_, ⟨h.wfD.set _ _, hwf.set _ _, ?_, ?_, ?_, ?_⟩, rfl⟩
  · simp only [insertNew, hn, ← hQ0, hb0, Option.getD_some, hxb, if_false]
  · intro p' b' hb'
    simp only [Dict.get_set] at hb'
    split at hb'
    · cases hb'; simp
    · rename_i hpp; rw [hother p' hpp] at hb'; exact h.ne _ _ hb'
  · intro p' b' hb'
    simp only [Dict.get_set] at hb'
    split at hb'
    · cases hb'
      rw [List.nodup_append]
      refine ⟨?_, by simp, ?_⟩
      · cases hg : q.Q.get p with
        | none => simp
        | some b => simpa [hg] using h.nd _ _ hg
      · intro a ha b hb; simp at hb; subst hb; rintro rfl; exact hxb ha
    · rename_i hpp; rw [hother p' hpp] at hb'; exact h.nd _ _ hb'
  · intro y p'
    simp only [Dict.get_set]
    by_cases hy : x = y
    · subst hy
      simp only [if_true]
      constructor
      · intro hh; cases hh; exact ⟨(q.Q.get p).getD [] ++ [x], by simp, by simp⟩
      · rintro ⟨b', hb', hxb'⟩
        split at hb'
        · rename_i hpp; rw [hpp]
        · rename_i hpp; rw [hother p' hpp] at hb'
          have := (h.agree x p').2 ⟨b', hb', hxb'⟩
          rw [hx] at this; cases this
    · simp only [hy, if_false]
      rw [h.agree y p']
      by_cases hpp : p = p'
      · subst hpp
        simp only [if_true]
        constructor
        · rintro ⟨b', hb', hyb'⟩
          exact ⟨_, rfl, by simp [hb', hyb']⟩
        · rintro ⟨b', hb', hyb'⟩
          cases hb'
          cases hg : q.Q.get p with
          | none => simp [hg] at hyb'; exact absurd hyb'.symm hy
          | some b => simp [hg] at hyb'; rcases hyb' with hyb' | hyb'
                      · exact ⟨b, rfl, hyb'⟩
                      · exact absurd hyb'.symm hy
      · simp only [hpp, if_false, hother p' hpp]
  · intro p' b' hb'
    simp only [Dict.get_set] at hb'
    refine ⟨n, rfl, ?_⟩
    split at hb'
    · rename_i hpp; subst hpp; exact hnp
    · rename_i hpp; rw [hother p' hpp] at hb'; exact hlow _ _ hb'

theorem setitem_spec {q : BQ α} (h : Inv q) (x : α) (p : Int) :
    ∃ q', q.setitem x p = .ok q' ∧ Inv q' ∧
      ∀ y, q'.D.get y = if y = x then some p else q.D.get y := by
  cases hx : q.D.get x with
  | none =>
    obtain ⟨q', h1, h2, h3⟩ := setitem_new h hx p
    refine ⟨q', by simp [setitem, hx, h1], h2, fun y => ?_⟩
    rw [h3, Dict.get_set]; simp [eq_comm]
  | some p0 =>
    obtain ⟨q1, hq1, hi1, hN1, hD1, _⟩ := delitem_spec h hx
    have hx1 : q1.D.get x = none := by rw [hD1, Dict.get_del]; simp
    obtain ⟨q', h1, h2, h3⟩ := setitem_new hi1 hx1 p
    refine ⟨q', ?_, h2, fun y => ?_⟩
    · simp [setitem, hx, hq1, h1]
    · rw [h3, Dict.get_set, hD1, Dict.get_del]; by_cases hy : x = y <;> simp [hy, eq_comm]

theorem advance_some {Q : Dict Int (List α)} {fuel : Nat} {n n' : Int}
    (h : advance Q fuel n = some n') :
    (Q.get n').isSome ∧ n ≤ n' ∧ ∀ m, n ≤ m → m < n' → Q.get m = none := by
  induction fuel generalizing n with
  | zero =>
    simp only [advance] at h
    split at h
    · cases h; exact ⟨by assumption, le_refl _, fun m h1 h2 => by omega⟩
    · cases h
  | succ k ih =>
    simp only [advance] at h
    split at h
    · cases h; exact ⟨by assumption, le_refl _, fun m h1 h2 => by omega⟩
    · rename_i hn
      obtain ⟨a, b, c⟩ := ih h
      refine ⟨a, by omega, fun m h1 h2 => ?_⟩
      by_cases hm : m = n
      · subst hm; simpa using hn
      · exact c m (by omega) h2

theorem advance_total {Q : Dict Int (List α)} {n p : Int} (hp : (Q.get p).isSome) (hle : n ≤ p)
    {fuel : Nat} (hf : (p - n).toNat ≤ fuel) : ∃ n', advance Q fuel n = some n' := by
  induction fuel generalizing n with
  | zero =>
    have : p = n := by omega
    subst this; exact ⟨p, by simp [advance, hp]⟩
  | succ k ih =>
    simp only [advance]
    split
    · exact ⟨_, rfl⟩
    · rename_i hn
      by_cases hpn : p = n
      · subst hpn; exact absurd hp hn
      · exact ih (by omega) (by omega)

/-- Everything `popitem` can do from a state satisfying the invariant. -/
theorem popitem_spec {q : BQ α} (h : Inv q) {pick : List α → Option α}
    (hp1 : ∀ l x, pick l = some x → x ∈ l) (hp2 : ∀ l, l ≠ [] → (pick l).isSome) :
    (∃ f0, ∀ fuel, f0 ≤ fuel → ∃ r q', popitem fuel pick q = some (.ok (r, q'))) ∧
    ∀ fuel res, popitem fuel pick q = some res →
      ∃ r q', res = .ok (r, q') ∧ Inv q' ∧
        ((r = none ∧ q' = q ∧ q.D = []) ∨
         ∃ x p, r = some (x, p) ∧ q.D.get x = some p ∧ (∀ y p', q.D.get y = some p' → p ≤ p') ∧
           q'.D = q.D.del x) := by
  have hDQ : q.Q = [] → q.D = [] := by
    intro hQ
    by_contra hD
    obtain ⟨⟨x, p⟩, hxp⟩ := List.exists_mem_of_ne_nil _ hD
    obtain ⟨b, hb, _⟩ := (h.agree x p).1 (Dict.get_of_mem h.wfD hxp)
    rw [hQ] at hb; cases hb
  have key : ∀ n n' fuel, q.Q ≠ [] → q.N = some n → advance q.Q fuel n = some n' →
      ∃ x q', popitem fuel pick q = some (.ok (some (x, n'), q')) ∧ Inv q' ∧
        q.D.get x = some n' ∧ (∀ y p', q.D.get y = some p' → n' ≤ p') ∧ q'.D = q.D.del x := by
    intro n n' fuel hQ hn ha
    obtain ⟨h1, h2, h3⟩ := advance_some ha
    obtain ⟨b, hb⟩ := Option.isSome_iff_exists.1 h1
    obtain ⟨x, hx⟩ := Option.isSome_iff_exists.1 (hp2 b (h.ne _ _ hb))
    have hxb := hp1 _ _ hx
    have hDx : q.D.get x = some n' := (h.agree x n').2 ⟨b, hb, hxb⟩
    have hmin : ∀ p b, q.Q.get p = some b → n' ≤ p := by
      intro p b hb
      obtain ⟨m, hm, hle⟩ := h.low p b hb
      rw [hn] at hm; cases hm
      by_contra hlt
      rw [h3 p hle (by omega)] at hb; cases hb
    obtain ⟨q', e1, e2, e3, e4, _⟩ := delitem_spec (h.mono_N n' hmin) (x := x) (p := n') hDx
    refine ⟨x, q', ?_, e2, hDx, ?_, e4⟩
    · simp only [popitem, hQ, if_false, hn, ha, hb, Option.getD_some, hx, e1]
    · intro y p' hy
      obtain ⟨b', hb', _⟩ := (h.agree y p').1 hy
      exact hmin _ _ hb'
  by_cases hQ : q.Q = []
  · refine ⟨⟨0, fun fuel _ => ⟨none, q, by simp [popitem, hQ]⟩⟩, fun fuel res hres => ?_⟩
    simp [popitem, hQ] at hres
    exact ⟨none, q, hres.symm, h, Or.inl ⟨rfl, rfl, hDQ hQ⟩⟩
  · obtain ⟨⟨p0, b0⟩, hpb⟩ := List.exists_mem_of_ne_nil _ hQ
    have hg0 := Dict.get_of_mem h.wfQ hpb
    obtain ⟨n, hn, hle⟩ := h.low p0 b0 hg0
    refine ⟨⟨(p0 - n).toNat, fun fuel hf => ?_⟩, fun fuel res hres => ?_⟩
    · obtain ⟨n', hn'⟩ := advance_total (Q := q.Q) (p := p0) (by simp [hg0]) hle hf
      obtain ⟨x, q', e, _⟩ := key n n' fuel hQ hn hn'
      exact ⟨_, _, e⟩
    · cases ha : advance q.Q fuel n with
      | none => simp [popitem, hQ, hn, ha] at hres
      | some n' =>
        obtain ⟨x, q', e, e2, e3, e4, e5⟩ := key n n' fuel hQ hn ha
        rw [e] at hres; cases hres
        exact ⟨_, _, rfl, e2, Or.inr ⟨x, n', rfl, e3, e4, e5⟩⟩

theorem run_inv {h : List (Op α)} {q : BQ α} (hr : Run h q) :
    Inv q ∧ ∀ x, q.D.get x = contentOf h x := by
  induction hr with
  | nil => exact ⟨Inv.empty, fun x => rfl⟩
  | @snoc h q o q' _ hs ih =>
    obtain ⟨hi, hc⟩ := ih
    have hfold : contentOf (h ++ [o]) = (contentOf h).apply o := by
      unfold contentOf; rw [List.foldl_append]; rfl
    rw [hfold]
    cases hs with
    | put e =>
      rename_i x p
      obtain ⟨q1, h1, h2, h3⟩ := setitem_spec hi x p
      rw [h1] at e; cases e
      exact ⟨h2, fun y => by rw [h3]; simp [Content.apply, hc]⟩
    | del e =>
      rename_i x
      cases hx : q.D.get x with
      | none => simp [delitem, hx] at e
      | some p =>
        obtain ⟨q1, h1, h2, _, h4, _⟩ := delitem_spec hi hx
        rw [h1] at e; cases e
        refine ⟨h2, fun y => ?_⟩
        rw [h4, Dict.get_del, hc]; simp [Content.apply, eq_comm]
    | pop hp1 hp2 e =>
      obtain ⟨r', q1, he, h2, h3⟩ := (popitem_spec hi hp1 hp2).2 _ _ e
      cases he
      refine ⟨h2, fun y => ?_⟩
      rcases h3 with ⟨rfl, rfl, _⟩ | ⟨x, p, rfl, hx, hm, hd⟩
      · simpa [Content.apply] using hc y
      · rw [hd, Dict.get_del, hc]; simp [Content.apply, eq_comm]

/-! ### Property C21 -/

/-- C21 (content): after any history the queue answers lookups and membership exactly according to
the abstract content, and its length is the number of items present. -/
theorem C21_content {h : List (Op α)} {q : BQ α} (hr : Run h q) (x : α) :
    q.getitem x = (match contentOf h x with | some p => .ok p | none => .error .keyError) ∧
    (q.contains x = true ↔ ∃ p, contentOf h x = some p) ∧
    Set.ncard {y | ∃ p, contentOf h y = some p} = q.len := by
  obtain ⟨hi, hc⟩ := run_inv hr
  refine ⟨?_, ?_, ?_⟩
  · unfold getitem; rw [hc]
    cases contentOf h x <;> rfl
  · rw [contains, hc, Option.isSome_iff_exists]
  · have hs : {y | ∃ p, contentOf h y = some p} = ((Dict.keys q.D).toFinset : Set α) := by
      ext y
      simp [← hc, ← Dict.mem_keys_iff_get]
    rw [hs, Set.ncard_coe_finset, List.toFinset_card_of_nodup hi.wfD]
    simp [Dict.keys, len]

/-- C21 (pop): a pop always comes back, never raises; it returns `None` iff the queue is empty, and
otherwise an item together with its priority, which is minimal. -/
theorem C21_pop {h : List (Op α)} {q : BQ α} (hr : Run h q) {pick : List α → Option α}
    (hp1 : ∀ l x, pick l = some x → x ∈ l) (hp2 : ∀ l, l ≠ [] → (pick l).isSome) :
    (∃ f0, ∀ fuel, f0 ≤ fuel → ∃ r q', popitem fuel pick q = some (.ok (r, q'))) ∧
    ∀ fuel res, popitem fuel pick q = some res →
      ∃ r q', res = .ok (r, q') ∧ Run (h ++ [.pop r]) q' ∧
        match r with
        | none => ∀ y, contentOf h y = none
        | some (x, p) => contentOf h x = some p ∧ ∀ y p', contentOf h y = some p' → p ≤ p' := by
  obtain ⟨hi, hc⟩ := run_inv hr
  obtain ⟨a, b⟩ := popitem_spec hi hp1 hp2
  refine ⟨a, fun fuel res hres => ?_⟩
  obtain ⟨r, q', rfl, _, hcase⟩ := b fuel res hres
  refine ⟨r, q', rfl, Run.snoc hr (Step.pop hp1 hp2 hres), ?_⟩
  rcases hcase with ⟨rfl, _, hD⟩ | ⟨x, p, rfl, hx, hm, _⟩
  · intro y; rw [← hc, hD]; rfl
  · exact ⟨by rw [← hc, hx], fun y p' hy => hm y p' (by rw [hc, hy])⟩

/-- C21 (progress): assignments always succeed; deletions raise `KeyError` exactly on absent items. -/
theorem C21_total {h : List (Op α)} {q : BQ α} (hr : Run h q) (x : α) (p : Int) :
    (∃ q', q.setitem x p = .ok q') ∧
    ((∃ q', q.delitem x = .ok q') ↔ ∃ p', contentOf h x = some p') ∧
    (contentOf h x = none → q.delitem x = .error .keyError) := by
  obtain ⟨hi, hc⟩ := run_inv hr
  refine ⟨?_, ⟨?_, ?_⟩, ?_⟩
  · obtain ⟨q', h1, _⟩ := setitem_spec hi x p; exact ⟨q', h1⟩
  · rintro ⟨q', e⟩
    rw [← hc]
    cases hx : q.D.get x with
    | none => simp [delitem, hx] at e
    | some p => exact ⟨p, rfl⟩
  · rintro ⟨p', hp'⟩
    obtain ⟨q', e, _⟩ := delitem_spec hi (x := x) (p := p') (by rw [hc, hp'])
    exact ⟨q', e⟩
  · intro hx; rw [← hc] at hx; simp [delitem, hx]

/-- Non-vacuity: a concrete history with a negative priority, a re-assignment and a pop. -/
example : ∃ q : BQ Nat, Run [.put 1 5, .put 2 7, .put 2 (-3), .pop (some (2, -3))] q ∧
    contentOf [.put 1 5, .put 2 7, .put 2 (-3), .pop (some (2, -3))] 1 = some 5 := by
  refine ⟨⟨[(1, 5)], [(5, [1])], some (-3)⟩, ?_, rfl⟩
  have h1 : Run [.put 1 5] (⟨[(1, 5)], [(5, [1])], some 5⟩ : BQ Nat) := Run.snoc Run.nil (.put rfl)
  have h2 : Run [.put 1 5, .put 2 7] (⟨[(1, 5), (2, 7)], [(5, [1]), (7, [2])], some 5⟩ : BQ Nat) :=
    Run.snoc h1 (.put rfl)
  have h3 : Run [.put 1 5, .put 2 7, .put 2 (-3)]
      (⟨[(1, 5), (2, -3)], [(5, [1]), (-3, [2])], some (-3)⟩ : BQ Nat) :=
    Run.snoc h2 (.put rfl)
  exact Run.snoc h3 (.pop (fuel := 1) (pick := List.head?)
    (fun l x hx => List.mem_of_head? hx) (fun l hl => by cases l <;> simp_all) rfl)

end BQ
end Verif
