/-
Property C76: the search for folds loses nothing.
-/
import Verif.FoldSearch
import Verif.HookThm
import Verif.Conserv
import Verif.MeasureThm

set_option linter.unusedSectionVars false
set_option linter.unusedSimpArgs false

namespace Verif
open Tm Heap Sem

namespace FoldSearch
open Unfold (Prog US Ops unfold Pre defn Data Below freshR derefR derefLit resolvent tryRule lookup offers)
open Fold (fold minus safeByRev partiallySafe foldsBy WVariant Faithful)
open Measure (Folded litTm ruleFolds)
open Hook (Exact)
open Solver (noHeap forEach)

/-! ### The subsets -/

section
variable {check : Finset Nat → Option Bool} {ok : Finset Nat → Bool} {ord : Finset Nat → List Nat}

/-- the first set, in depth-first order, that passes -/
def best (ok : Finset Nat → Bool) (ord : Finset Nat → List Nat) : Nat → Finset Nat → Option (Finset Nat)
  | 0, _ => none
  | n + 1, S => if ok S then some S else (ord S).findSome? fun i => best ok ord n (S.erase i)

theorem findSome?_congr {α β : Type} {g h : α → Option β} : ∀ {l : List α}, (∀ a ∈ l, g a = h a) → l.findSome? g = l.findSome? h
  | [], _ => rfl
  | a :: l, e => by
    rw [List.findSome?_cons, List.findSome?_cons, e a (by simp), findSome?_congr (l := l) fun b hb => e b (by simp [hb])]

theorem card_erase_lt {n : Nat} {S : Finset Nat} {i : Nat} (hi : i ∈ S) (h : S.card < n + 1) : (S.erase i).card < n := by
  rw [Finset.card_erase_of_mem hi]
  have := Finset.card_pos.2 ⟨i, hi⟩
  omega

theorem mem_ord (hord : ∀ S, (ord S).Perm (S.sort (· ≤ ·))) {S : Finset Nat} {i : Nat} : i ∈ ord S ↔ i ∈ S := by
  rw [(hord S).mem_iff, Finset.mem_sort]

theorem best_fuel (hord : ∀ S, (ord S).Perm (S.sort (· ≤ ·))) : ∀ {n m : Nat} {S : Finset Nat}, S.card < n → S.card < m →
    best ok ord n S = best ok ord m S
  | 0, _, _, h, _ => by omega
  | _, 0, _, _, h => by omega
  | n + 1, m + 1, S, h, h' => by
    simp only [best]
    rw [findSome?_congr fun i hi => best_fuel hord (card_erase_lt ((mem_ord hord).1 hi) h) (card_erase_lt ((mem_ord hord).1 hi) h')]

theorem best_some (hord : ∀ S, (ord S).Perm (S.sort (· ≤ ·))) : ∀ {n : Nat} {S T : Finset Nat}, best ok ord n S = some T → T ⊆ S ∧ ok T = true
  | 0, _, _, h => by simp [best] at h
  | n + 1, S, T, h => by
    simp only [best] at h
    by_cases hS : ok S = true
    · rw [if_pos hS, Option.some.injEq] at h
      subst h
      exact ⟨subset_rfl, hS⟩
    · rw [if_neg hS] at h
      obtain ⟨i, hi, he⟩ := List.exists_of_findSome?_eq_some h
      obtain ⟨h1, h2⟩ := best_some hord he
      exact ⟨h1.trans (Finset.erase_subset _ _), h2⟩

theorem best_none (hord : ∀ S, (ord S).Perm (S.sort (· ≤ ·))) : ∀ {n : Nat} {S : Finset Nat}, S.card < n → best ok ord n S = none →
    ∀ T ⊆ S, ok T = false
  | 0, _, h, _ => by omega
  | n + 1, S, hc, h => by
    intro T hT
    simp only [best] at h
    by_cases hS : ok S = true
    · rw [if_pos hS] at h
      cases h
    · rw [if_neg hS, List.findSome?_eq_none_iff] at h
      rcases hT.eq_or_ssubset with rfl | hs
      · simpa using hS
      · obtain ⟨i, hi, hn⟩ := Finset.exists_of_ssubset hs
        exact best_none hord (card_erase_lt hi hc) (h i ((mem_ord hord).2 hi)) T
          fun x hx => Finset.mem_erase.2 ⟨fun e => hn (e ▸ hx), hT hx⟩

/-- the table is right -/
def MemoOK (ok : Finset Nat → Bool) (ord : Finset Nat → List Nat) (m : List (Finset Nat × Option (Finset Nat))) : Prop :=
  ∀ e ∈ m, e.2 = best ok ord (e.1.card + 1) e.1

theorem lookup_mem {α β : Type} [DecidableEq α] {a : α} : ∀ {m : List (α × β)} {b : β}, m.lookup a = some b → (a, b) ∈ m
  | [], _, h => by simp at h
  | e :: m, b, h => by
    rw [List.lookup_cons] at h
    by_cases he : a = e.1
    · subst he; simp at h; subst h; simp
    · have : (a == e.1) = false := by simpa using he
      rw [this] at h
      exact List.mem_cons_of_mem _ (lookup_mem h)

theorem lookup_none {α β : Type} [DecidableEq α] {a : α} : ∀ {m : List (α × β)}, m.lookup a = none → a ∉ m.map Prod.fst
  | [], _ => by simp
  | e :: m, h => by
    rw [List.lookup_cons] at h
    by_cases he : a = e.1
    · subst he; simp at h
    · have : (a == e.1) = false := by simpa using he
      rw [this] at h
      simp only [List.map_cons, List.mem_cons, not_or]
      exact ⟨he, lookup_none h⟩

/-- what one call adds to the state -/
structure Adds (S : Finset Nat) (strict : Prop) (st st' : FS) (new : List (Finset Nat)) : Prop where
  log : st'.tried = st.tried ++ new
  nodup : new.Nodup
  sub : ∀ T ∈ new, T ⊆ S ∧ (strict → T ≠ S) ∧ T ∉ st.memo.map Prod.fst ∧ T ∈ st'.memo.map Prod.fst
  keys : ∀ T ∈ st.memo.map Prod.fst, T ∈ st'.memo.map Prod.fst

theorem firstOf_memo {g : Nat → FS → Option (Option (Finset Nat) × FS)} {b : Nat → Option (Finset Nat)} {S : Finset Nat}
    {P : List (Finset Nat × Option (Finset Nat)) → Prop} :
    ∀ (l : List Nat) (st : FS), (∀ i ∈ l, ∀ st, P st.memo → ∃ st' new, g i st = some (b i, st') ∧ P st'.memo ∧ Adds S True st st' new) → P st.memo →
      ∃ st' new, firstOf g l st = some (l.findSome? b, st') ∧ P st'.memo ∧ Adds S True st st' new
  | [], st, _, hP => ⟨st, [], rfl, hP, by simp, by simp, by simp, fun T h => h⟩
  | i :: l, st, h, hP => by
    obtain ⟨st1, n1, e1, p1, a1⟩ := h i (by simp) st hP
    simp only [firstOf, e1, List.findSome?_cons]
    cases hb : b i with
    | some v => exact ⟨st1, n1, rfl, p1, a1⟩
    | none =>
      obtain ⟨st2, n2, e2, p2, a2⟩ := firstOf_memo l st1 (fun j hj => h j (by simp [hj])) p1
      refine ⟨st2, n1 ++ n2, e2, p2, by rw [a2.log, a1.log, List.append_assoc], ?_, ?_, fun T hT => a2.keys T (a1.keys T hT)⟩
      · refine List.nodup_append.2 ⟨a1.nodup, a2.nodup, fun T h1 T' h2 e => ?_⟩
        subst e
        exact (a2.sub T h2).2.2.1 (a1.sub T h1).2.2.2
      · intro T hT
        rcases List.mem_append.1 hT with hT | hT
        · obtain ⟨c1, c2, c3, c4⟩ := a1.sub T hT
          exact ⟨c1, c2, c3, a2.keys T c4⟩
        · obtain ⟨c1, c2, c3, c4⟩ := a2.sub T hT
          exact ⟨c1, c2, fun h => c3 (a1.keys T h), c4⟩

theorem memoF_spec (hord : ∀ S, (ord S).Perm (S.sort (· ≤ ·))) : ∀ (n : Nat) (S : Finset Nat) (st : FS), S.card < n →
    (∀ T ⊆ S, check T = some (ok T)) → MemoOK ok ord st.memo →
    ∃ st' new, memoF check ord n S st = some (best ok ord (S.card + 1) S, st') ∧ MemoOK ok ord st'.memo ∧ Adds S False st st' new ∧
      S ∈ st'.memo.map Prod.fst
  | 0, _, _, h, _, _ => by omega
  | n + 1, S, st, hc, hk, hm => by
    simp only [memoF]
    cases hl : st.memo.lookup S with
    | some v =>
      have := hm _ (lookup_mem hl)
      simp only at this
      exact ⟨st, [], by rw [this], hm, ⟨by simp, by simp, by simp, fun T h => h⟩, List.mem_map.2 ⟨_, lookup_mem hl, rfl⟩⟩
    | none =>
      have hn := lookup_none hl
      rw [hk S subset_rfl]
      cases hS : ok S with
      | true =>
        have hb : best ok ord (S.card + 1) S = some S := by simp only [best, hS, if_true]
        refine ⟨⟨(S, some S) :: st.memo, st.tried ++ [S]⟩, [S], by rw [hb], ?_, ⟨rfl, by simp, ?_, ?_⟩, by simp⟩
        · intro e he
          rcases List.mem_cons.1 he with rfl | he
          · exact hb.symm
          · exact hm e he
        · simpa using hn
        · intro T hT; exact List.mem_cons_of_mem _ hT
      | false =>
        obtain ⟨st1, new, e1, p1, a1⟩ := firstOf_memo (S := S) (P := MemoOK ok ord) (b := fun i => best ok ord ((S.erase i).card + 1) (S.erase i))
          (g := fun i => memoF check ord n (S.erase i)) (ord S) ⟨st.memo, st.tried ++ [S]⟩ (by
            intro i hi st hm
            have hi := (mem_ord hord).1 hi
            obtain ⟨st', new, e, p, a, -⟩ := memoF_spec hord n (S.erase i) st (card_erase_lt hi hc)
              (fun T hT => hk T (hT.trans (Finset.erase_subset _ _))) hm
            refine ⟨st', new, e, p, a.log, a.nodup, fun T hT => ?_, a.keys⟩
            obtain ⟨c1, -, c3, c4⟩ := a.sub T hT
            refine ⟨c1.trans (Finset.erase_subset _ _), fun _ h => ?_, c3, c4⟩
            subst h
            exact Finset.notMem_erase i T (c1 hi)) hm
        have hb : best ok ord (S.card + 1) S = (ord S).findSome? fun i => best ok ord ((S.erase i).card + 1) (S.erase i) := by
          rw [best, hS]
          simp only [Bool.false_eq_true, if_false]
          exact findSome?_congr fun i hi => best_fuel hord (card_erase_lt ((mem_ord hord).1 hi) (Nat.lt_succ_self _)) (Nat.lt_succ_self _)
        refine ⟨⟨(S, best ok ord (S.card + 1) S) :: st1.memo, st1.tried⟩, S :: new, ?_, ?_, ⟨?_, ?_, ?_, ?_⟩, by simp⟩
        · rw [e1, hb]
        · intro e he
          rcases List.mem_cons.1 he with rfl | he
          · rfl
          · exact p1 e he
        · rw [a1.log]; simp
        · exact List.nodup_cons.2 ⟨fun h => (a1.sub S h).2.1 trivial rfl, a1.nodup⟩
        · intro T hT
          rcases List.mem_cons.1 hT with rfl | hT
          · exact ⟨subset_rfl, by simp, hn, by simp⟩
          · obtain ⟨c1, -, c3, c4⟩ := a1.sub T hT
            exact ⟨c1, by simp, c3, List.mem_cons_of_mem _ c4⟩
        · intro T hT; exact List.mem_cons_of_mem _ (a1.keys T hT)

theorem firstOf_plain {σ β : Type} {g : Nat → σ → Option (Option β × σ)} {b : Nat → Option β} :
    ∀ (l : List Nat) (s : σ), (∀ i ∈ l, ∀ s, ∃ s', g i s = some (b i, s')) → ∃ s', firstOf g l s = some (l.findSome? b, s')
  | [], s, _ => ⟨s, rfl⟩
  | i :: l, s, h => by
    obtain ⟨s1, e1⟩ := h i (by simp) s
    simp only [firstOf, e1, List.findSome?_cons]
    cases hb : b i with
    | some v => exact ⟨s1, rfl⟩
    | none => exact firstOf_plain l s1 fun j hj => h j (by simp [hj])

theorem plainF_spec (hord : ∀ S, (ord S).Perm (S.sort (· ≤ ·))) : ∀ (n : Nat) (S : Finset Nat) (tr : List (Finset Nat)), S.card < n →
    (∀ T ⊆ S, check T = some (ok T)) → ∃ tr', plainF check ord n S tr = some (best ok ord (S.card + 1) S, tr')
  | 0, _, _, h, _ => by omega
  | n + 1, S, tr, hc, hk => by
    simp only [plainF]
    rw [hk S subset_rfl]
    cases hS : ok S with
    | true => exact ⟨tr ++ [S], by simp only [best, hS, if_true]⟩
    | false =>
      have hb : best ok ord (S.card + 1) S = (ord S).findSome? fun i => best ok ord ((S.erase i).card + 1) (S.erase i) := by
        rw [best, hS]
        simp only [Bool.false_eq_true, if_false]
        exact findSome?_congr fun i hi => best_fuel hord (card_erase_lt ((mem_ord hord).1 hi) (Nat.lt_succ_self _)) (Nat.lt_succ_self _)
      rw [hb]
      exact firstOf_plain _ _ fun i hi tr => plainF_spec hord n (S.erase i) tr (card_erase_lt ((mem_ord hord).1 hi) hc)
        (fun T hT => hk T (hT.trans (Finset.erase_subset _ _)))

/-- **C76 (the search over subsets).**  If the check can be decided for every subset of the candidates, the search
yields a set that passes the check whenever there is one, and nothing otherwise; no set is checked twice, and none that
is not a subset of the candidates.  The search without a table yields the same set. -/
theorem C76_subsets (hord : ∀ S, (ord S).Perm (S.sort (· ≤ ·))) {Qs : Finset Nat} (hk : ∀ T ⊆ Qs, check T = some (ok T)) :
    ∃ v tried tried', foldRS check ord Qs = some (v, tried) ∧ plainF check ord (Qs.card + 1) Qs [] = some (v, tried') ∧
      (∀ S, v = some S → S ⊆ Qs ∧ ok S = true) ∧ ((∃ T ⊆ Qs, ok T = true) → v.isSome) ∧
      tried.Nodup ∧ (∀ T ∈ tried, T ⊆ Qs) ∧ tried.length ≤ 2 ^ Qs.card := by
  obtain ⟨st, new, e, -, a, -⟩ := memoF_spec hord (Qs.card + 1) Qs ⟨[], []⟩ (Nat.lt_succ_self _) hk (by intro e he; simp at he)
  obtain ⟨tr', e'⟩ := plainF_spec hord (Qs.card + 1) Qs [] (Nat.lt_succ_self _) hk
  have ht : st.tried = new := by rw [a.log]; rfl
  refine ⟨_, _, _, by rw [foldRS, e]; rfl, e', fun S hS => best_some hord hS, ?_, ?_, ?_, ?_⟩
  · rintro ⟨T, hT, h⟩
    by_contra hn
    rw [Bool.not_eq_true, Option.isSome_eq_false_iff, Option.isNone_iff_eq_none] at hn
    rw [best_none hord (Nat.lt_succ_self _) hn T hT] at h
    cases h
  · rw [ht]; exact a.nodup
  · rw [ht]; exact fun T hT => (a.sub T hT).1
  · rw [ht, ← Finset.card_powerset, ← List.toFinset_card_of_nodup a.nodup]
    refine Finset.card_le_card fun T hT => ?_
    rw [List.mem_toFinset] at hT
    exact Finset.mem_powerset.2 (a.sub T hT).1

end

/-! ### Proposals -/

section
variable {W : Type} [CSemi W] [DecidableEq W]

/-- a subgoal with a name, or a value -/
def Plain (l : Lit W) : Prop := ∀ t, l = .sub t → Named t

theorem coverF_key {f : Nat} {s s' : Heap} {x y : Tm} (hx : Named x ∨ ∃ c, x = .con c) (h : Subst.coverF f s x y = some (some s')) :
    key y = key x := by
  rcases hx with ⟨c, as, rfl⟩ | ⟨c, rfl⟩
  · simp only [Subst.coverF] at h
    split at h
    · rename_i e; rw [← e]
    · cases y with
      | var n => simp at h
      | con d => simp at h
      | app bs =>
        simp only at h
        split at h
        · rename_i hl
          cases bs with
          | nil => simp at hl
          | cons b bs =>
            simp only [Subst.coverLF, Subst.coverF] at h
            by_cases e : Tm.con c = b
            · subst e; rfl
            · rw [if_neg e] at h; simp at h
        · simp at h
  · simp only [Subst.coverF] at h
    split at h
    · rename_i e; rw [← e]
    · simp at h

theorem mem_collect {α β : Type} {g : α → Option (List β)} {l : List α} {r : List β} (h : collect g l = some r) {x : β} :
    x ∈ r ↔ ∃ a ∈ l, ∃ y, g a = some y ∧ x ∈ y := by
  obtain ⟨rs, h2, rfl⟩ := collect_spec h
  clear h
  induction h2 with
  | nil => simp
  | cons hd _ ih =>
    simp only [List.flatten_cons, List.mem_append, ih, List.mem_cons, exists_eq_or_imp, hd, Option.some.injEq, exists_eq_left']

theorem collect_all {α β : Type} {g : α → Option (List β)} {l : List α} {r : List β} (h : collect g l = some r) {a : α} (ha : a ∈ l) :
    ∃ y, g a = some y := by
  obtain ⟨rs, h2, rfl⟩ := collect_spec h
  obtain ⟨n, hn, rfl⟩ := List.mem_iff_getElem.1 ha
  exact ⟨_, List.Forall₂.get h2 hn (h2.length_eq ▸ hn)⟩

theorem coversF_count {f : Nat} {ord : List Nat → List Nat} (hord : ∀ l, (ord l).Perm l) {ys : List Tm} :
    ∀ {xs : List Tm} {i : Nat} {js : List Nat} {s : Option Heap} {rs : List Product.Res} {r : Product.Res},
      (∀ x ∈ xs, Named x ∨ ∃ c, x = .con c) → Product.coversF f ord ys xs i js s = some rs → r ∈ rs →
      ∀ a, (xs.map key).count a ≤ (js.filterMap fun j => (ys[j]?).map key).count a
  | [], _, _, _, _, _, _, _, _, a => by simp
  | x :: xs, i, js, none, rs, r, _, h, hr, a => by
    simp only [Product.coversF, Option.some.injEq] at h
    subst h; simp at hr
  | x :: xs, i, js, some s, rs, r, hx, h, hr, a => by
    simp only [Product.coversF] at h
    split at h
    · simp only [Option.some.injEq] at h; subst h; simp at hr
    · obtain ⟨j, hj, rs', h', hr'⟩ := (mem_collect h).1 hr
      rw [(hord js).mem_iff] at hj
      split at h'
      · cases h'
      · rename_i y hy
        split at h'
        · cases h'
        · rename_i s' hs
          rw [Option.map_eq_some_iff] at h'
          obtain ⟨rs'', h'', rfl⟩ := h'
          obtain ⟨r', hr'', -⟩ := List.mem_map.1 hr'
          have ih := coversF_count hord (fun x hx' => hx x (List.mem_cons_of_mem _ hx')) h'' hr'' a
          cases s' with
          | none =>
            cases xs <;> simp [Product.coversF] at h'' <;> subst h'' <;> simp at hr''
          | some s' =>
            have hkey := coverF_key (hx x (by simp)) hs
            have hp := (List.perm_cons_erase hj).filterMap (fun j => (ys[j]?).map key)
            rw [hp.count_eq]
            simp only [List.filterMap_cons, hy, Option.map_some, hkey, List.map_cons]
            rw [List.count_cons, List.count_cons]
            omega

theorem range_filterMap : ∀ l : List Tm, ((List.range l.length).filterMap fun j => (l[j]?).map key) = l.map key
  | [] => rfl
  | x :: l => by
    rw [List.length_cons, List.range_succ_eq_map, List.filterMap_cons]
    simp only [List.getElem?_cons_zero, Option.map_some, List.map_cons, List.filterMap_map]
    rw [← range_filterMap l]
    rfl

theorem within_of_count {α : Type} [DecidableEq α] {d p : List α} (h : ∀ a, d.count a ≤ p.count a) : within d p = true := by
  simp only [within, List.all_eq_true, decide_eq_true_eq]
  exact fun a _ => h a

theorem within_iff {α : Type} [DecidableEq α] [b : BEq α] [LawfulBEq α] {d p : List α} :
    within d p = true ↔ ∀ a ∈ d, d.count a ≤ p.count a := by
  have e : b = instBEqOfDecidableEq := lawful_beq_subsingleton _ _
  subst e
  simp only [within, List.all_eq_true, decide_eq_true_eq]

theorem litTm_plain {code : W → Const} {l : Lit W} (h : Plain l) : Named (litTm code l) ∨ ∃ c, litTm code l = .con c := by
  cases l with
  | val k => exact .inr ⟨_, rfl⟩
  | sub t => exact .inl (h t rfl)

/-- **C76 (the early test).**  A definition whose body has a functor more often than the rule has no fold with that
rule, provided that no subgoal of the definition is a variable: the early test of `fold_proposals` drops nothing. -/
theorem C76_early_test {f : Nat} {ord : List Nat → List Nat} (hord : ∀ l, (ord l).Perm l) {code : W → Const} {p d : WRule W}
    (hd : ∀ l ∈ d.body, Plain l) {us : List (Folded W)} (h : ruleFolds f ord code p d = some us)
    (hw : within (bodyFns code d) (bodyFns code p) = false) : us = [] := by
  refine List.eq_nil_iff_forall_not_mem.2 fun u hu => ?_
  unfold ruleFolds at h
  split at h
  · cases h
  · rename_i cs hcs
    obtain ⟨c, hc, -⟩ := (mem_collect h).1 hu
    have := coversF_count hord (xs := d.body.map (litTm code)) (by
      intro x hx
      obtain ⟨l, hl, rfl⟩ := List.mem_map.1 hx
      exact litTm_plain (hd l hl)) hcs hc
    rw [within_of_count] at hw
    · cases hw
    · intro a
      have := this a
      have e : ((List.range (p.body.map (litTm code)).length).filterMap fun j => ((p.body.map (litTm code))[j]?).map key) = bodyFns code p := by
        have := range_filterMap (p.body.map (litTm code))
        rw [this, bodyFns, List.map_map]
        rfl
      rw [e] at this
      rwa [bodyFns, ← Function.comp_def, ← List.map_map]


variable {S' : Type} [DecidableEq S'] {o : RuleOps (WRule W) S'}

theorem addNew_spec (ho : Exact o) : ∀ (us : List (WRule W)) (s : List (WRule W) × Nat),
    s.1.Pairwise (fun a b => o.same b a = false) →
    (us.foldl (addNew o) s).1.Pairwise (fun a b => o.same b a = false) ∧
    (∀ r ∈ s.1, r ∈ (us.foldl (addNew o) s).1) ∧ (∀ u ∈ us, ∃ r ∈ (us.foldl (addNew o) s).1, WVariant u r) ∧
    ∀ r ∈ (us.foldl (addNew o) s).1, r ∈ s.1 ∨ ∃ u ∈ us, WVariant u r
  | [], s, h => ⟨h, fun r h => h, by simp, fun r h => .inl h⟩
  | u :: us, s, h => by
    rw [List.foldl_cons]
    have hstep : (addNew o s u).1.Pairwise (fun a b => o.same b a = false) ∧ (∀ r ∈ s.1, r ∈ (addNew o s u).1) ∧
        (∃ r ∈ (addNew o s u).1, WVariant u r) ∧ ∀ r ∈ (addNew o s u).1, r ∈ s.1 ∨ WVariant u r := by
      simp only [addNew]
      have hf := Hook.fresh_variant s.2 u
      by_cases ha : s.1.any (o.same (freshR s.2 u).1) = true
      · rw [if_pos ha]
        obtain ⟨r, hr, hs⟩ := List.any_eq_true.1 ha
        exact ⟨h, fun r h => h, ⟨r, hr, hf.trans ((ho.iff _ _).1 hs)⟩, fun r h => .inl h⟩
      · rw [if_neg ha]
        refine ⟨List.pairwise_append.2 ⟨h, by simp, ?_⟩, fun r h => by simp [h], ⟨_, by simp, hf⟩, ?_⟩
        · intro a ha' b hb
          rw [List.mem_singleton] at hb
          subst hb
          by_contra hc
          exact ha (List.any_eq_true.2 ⟨a, ha', by simpa using hc⟩)
        · intro r hr
          rcases List.mem_append.1 hr with hr | hr
          · exact .inl hr
          · rw [List.mem_singleton] at hr
            subst hr
            exact .inr hf
    obtain ⟨a1, a2, a3, a4⟩ := hstep
    obtain ⟨b1, b2, b3, b4⟩ := addNew_spec ho us (addNew o s u) a1
    refine ⟨b1, fun r hr => b2 r (a2 r hr), ?_, ?_⟩
    · intro v hv
      rcases List.mem_cons.1 hv with rfl | hv
      · obtain ⟨r, hr, hv⟩ := a3
        exact ⟨r, b2 r hr, hv⟩
      · exact b3 v hv
    · intro r hr
      rcases b4 r hr with hr | ⟨v, hv, h⟩
      · rcases a4 r hr with hr | h
        · exact .inl hr
        · exact .inr ⟨u, by simp, h⟩
      · exact .inr ⟨v, by simp [hv], h⟩

/-- `u` is what folding rule `p` by the definition `d` gives, and is not to be skipped -/
def Proposed (f : Nat) (ord : List Nat → List Nat) (code : W → Const) (skipTrivial skipZero : Bool) (d p u : WRule W) : Prop :=
  (skipZero = true → p.body ≠ [] ∧ d.body ≠ []) ∧
  (∃ us t, ruleFolds f ord code p d = some us ∧ t ∈ us ∧ u = ⟨p.head, .sub t.subgoal :: t.rest⟩) ∧
  (skipTrivial = true → u.body ≠ [.sub u.head])

theorem propose_mem {f : Nat} {ord : List Nat → List Nat} (hord : ∀ l, (ord l).Perm l) {shuf : List (WRule W) → List (WRule W)}
    (hshuf : ∀ l r, r ∈ shuf l ↔ r ∈ l) {code : W → Const} {a b : Bool} {d p : WRule W} (hd : ∀ l ∈ d.body, Plain l)
    {us : List (WRule W)} (h : propose f ord shuf code a b d p = some us) {u : WRule W} :
    u ∈ us ↔ Proposed f ord code a b d p u := by
  unfold propose at h
  unfold Proposed
  by_cases h1 : (b && (p.body.isEmpty || d.body.isEmpty)) = true
  · rw [if_pos h1, Option.some.injEq] at h
    subst h
    simp only [List.not_mem_nil, false_iff]
    rintro ⟨h2, -⟩
    simp only [Bool.and_eq_true, Bool.or_eq_true, List.isEmpty_iff] at h1
    obtain ⟨h3, h4⟩ := h2 h1.1
    rcases h1.2 with h | h
    · exact h3 h
    · exact h4 h
  · rw [if_neg h1] at h
    have h1' : b = true → p.body ≠ [] ∧ d.body ≠ [] := by
      intro hb
      simp only [hb, Bool.true_and, Bool.or_eq_true, List.isEmpty_iff, not_or] at h1
      exact h1
    by_cases h2 : (!within (bodyFns code d) (bodyFns code p)) = true
    · rw [if_pos h2, Option.some.injEq] at h
      subst h
      simp only [List.not_mem_nil, false_iff]
      rintro ⟨-, ⟨us, t, e, ht, -⟩, -⟩
      rw [C76_early_test hord hd e (by simpa using h2)] at ht
      simp at ht
    · rw [if_neg h2, Option.map_eq_some_iff] at h
      obtain ⟨us', e, rfl⟩ := h
      rw [List.mem_filter, hshuf, List.mem_map]
      have htr : (!(a && trivialFold u)) = true ↔ (a = true → u.body ≠ [.sub u.head]) := by
        have : trivialFold u = true ↔ u.body = [.sub u.head] := by
          unfold trivialFold
          split
          · rename_i t ht
            rw [ht]
            simp [eq_comm]
          · rename_i hne
            simp only [Bool.false_eq_true, false_iff]
            exact fun h => hne _ h
        rw [Bool.not_eq_true', Bool.and_eq_false_imp]
        constructor
        · intro h ha hb
          rw [this.2 hb] at h
          exact absurd (h ha) (by simp)
        · intro h ha
          by_contra hc
          exact h ha (this.1 (by simpa using hc))
      rw [htr]
      constructor
      · rintro ⟨⟨t, ht, rfl⟩, h3⟩
        exact ⟨h1', ⟨us', t, e, ht, rfl⟩, h3⟩
      · rintro ⟨-, ⟨us, t, e', ht, rfl⟩, h3⟩
        rw [e] at e'
        cases e'
        exact ⟨⟨t, ht, rfl⟩, h3⟩

theorem freshR_bounds (k : Nat) (u : WRule W) : k ≤ (freshR k u).2 ∧ ∀ n ∈ rvars (freshR k u).1, k ≤ n ∧ n < (freshR k u).2 := by
  obtain ⟨ρ, h1, -, h3, h4⟩ := Unfold.freshR_spec k u
  refine ⟨h4, fun n hn => ?_⟩
  rw [h1, rvars_renRule, Finset.mem_image] at hn
  obtain ⟨m, hm, rfl⟩ := hn
  exact h3 m hm

theorem addNew_apart : ∀ (us : List (WRule W)) (s : List (WRule W) × Nat), s.1.Pairwise (fun a b => Disjoint (rvars a) (rvars b)) →
    (∀ r ∈ s.1, ∀ n ∈ rvars r, n < s.2) → (us.foldl (addNew o) s).1.Pairwise (fun a b => Disjoint (rvars a) (rvars b))
  | [], _, h, _ => h
  | u :: us, s, h, hb => by
    rw [List.foldl_cons]
    obtain ⟨b1, b2⟩ := freshR_bounds s.2 u
    by_cases ha : s.1.any (o.same (freshR s.2 u).1) = true
    · have e : addNew o s u = (s.1, (freshR s.2 u).2) := by simp only [addNew]; rw [if_pos ha]
      rw [e]
      exact addNew_apart us _ h fun r hr n hn => lt_of_lt_of_le (hb r hr n hn) b1
    · have e : addNew o s u = (s.1 ++ [(freshR s.2 u).1], (freshR s.2 u).2) := by simp only [addNew]; rw [if_neg ha]
      rw [e]
      refine addNew_apart us _ (List.pairwise_append.2 ⟨h, by simp, ?_⟩) ?_
      · intro a ha' b hb'
        rw [List.mem_singleton] at hb'
        subst hb'
        rw [Finset.disjoint_left]
        intro n h1 h2
        exact absurd (hb a ha' n h1) (Nat.not_lt.2 (b2 n h2).1)
      · intro r hr n hn
        rcases List.mem_append.1 hr with hr | hr
        · exact lt_of_lt_of_le (hb r hr n hn) b1
        · rw [List.mem_singleton] at hr
          subst hr
          exact (b2 n hn).2

/-- **C76 (variables of proposals).**  No two proposals share a variable. -/
theorem C76_proposals_apart {f : Nat} {ord : List Nat → List Nat} {shuf : List (WRule W) → List (WRule W)} {code : W → Const} {a b : Bool}
    {p defs : Prog W} {k k' : Nat} {rs : List (WRule W)} (h : proposals f o ord shuf code a b p defs k = some (rs, k')) :
    rs.Pairwise fun r r' => Disjoint (rvars r) (rvars r') := by
  unfold proposals at h
  rw [Option.map_eq_some_iff] at h
  obtain ⟨us, -, h2⟩ := h
  have := addNew_apart (o := o) us ([], k) .nil (by simp)
  rw [h2] at this
  exact this

/-- **C76 (proposals).**  If no subgoal of a definition is a variable, the proposals are, up to renaming and reordering,
exactly the rules obtained by folding a rule of the program by a definition, without those to be skipped; no two of
them are variants of each other. -/
theorem C76_proposals (ho : Exact o) {f : Nat} {ord : List Nat → List Nat} (hord : ∀ l, (ord l).Perm l)
    {shuf : List (WRule W) → List (WRule W)} (hshuf : ∀ l r, r ∈ shuf l ↔ r ∈ l) {code : W → Const} {a b : Bool} {p defs : Prog W} {k k' : Nat}
    (hd : ∀ d ∈ defs.rules, ∀ l ∈ d.body, Plain l) {rs : List (WRule W)} (h : proposals f o ord shuf code a b p defs k = some (rs, k')) :
    (∀ d ∈ defs.rules, ∀ s ∈ p.rules, ∀ u, Proposed f ord code a b d s u → ∃ r ∈ rs, WVariant u r) ∧
    (∀ r ∈ rs, ∃ d ∈ defs.rules, ∃ s ∈ p.rules, ∃ u, Proposed f ord code a b d s u ∧ WVariant u r) ∧
    rs.Pairwise fun r r' => ¬ WVariant r r' := by
  unfold proposals at h
  rw [Option.map_eq_some_iff] at h
  obtain ⟨us, h1, h2⟩ := h
  have hus : ∀ u, u ∈ us ↔ ∃ d ∈ defs.rules, ∃ s ∈ p.rules, Proposed f ord code a b d s u := by
    intro u
    rw [mem_collect h1]
    refine exists_congr fun d => and_congr_right fun hd' => ?_
    constructor
    · rintro ⟨y, h3, hu⟩
      obtain ⟨s, hs, z, h4, hu⟩ := (mem_collect h3).1 hu
      exact ⟨s, hs, (propose_mem hord hshuf (hd d hd') h4).1 hu⟩
    · rintro ⟨s, hs, hu⟩
      obtain ⟨y, h3⟩ := collect_all h1 hd'
      obtain ⟨z, h4⟩ := collect_all h3 hs
      exact ⟨y, h3, (mem_collect h3).2 ⟨s, hs, z, h4, (propose_mem hord hshuf (hd d hd') h4).2 hu⟩⟩
  obtain ⟨b1, b2, b3, b4⟩ := addNew_spec ho us ([], k) .nil
  rw [h2] at b1 b2 b3 b4
  refine ⟨fun d hd' s hs u hu => b3 u ((hus u).2 ⟨d, hd', s, hs, hu⟩), fun r hr => ?_, b1.imp fun {r r'} h hv => ?_⟩
  · rcases b4 r hr with hr | ⟨u, hu, hv⟩
    · simp at hr
    · obtain ⟨d, hd', s, hs, h⟩ := (hus u).1 hu
      exact ⟨d, hd', s, hs, u, h, hv⟩
  · rw [(ho.iff _ _).2 hv.symm] at h
    cases h

/-! ### Candidates -/

/-- a property of the state that a stretch of code keeps -/
def Keeps {σ : Type} (P : σ → Prop) (b : Body σ) : Prop := ∀ h s h' s' g, P s → b h s = some (h', s', g) → P s'

theorem unify_keeps {σ : Type} {P : σ → Prop} : ∀ f : Nat,
    (∀ x y (b : Body σ), Keeps P b → Keeps P (unifyF f x y b)) ∧ (∀ n y (b : Body σ), Keeps P b → Keeps P (bindF f n y b)) ∧
    ∀ xs ys (b : Body σ), Keeps P b → Keeps P (unifyNF f xs ys b)
  | 0 => ⟨fun x y b _ h s h' s' g _ e => by simp [unifyF] at e, fun n y b _ h s h' s' g _ e => by simp [bindF] at e,
      fun xs ys b _ h s h' s' g _ e => by simp [unifyNF] at e⟩
  | f + 1 => by
    obtain ⟨i1, i2, i3⟩ := unify_keeps (P := P) f
    refine ⟨?_, ?_, ?_⟩
    · intro x y b hb h s h' s' g hP e
      simp only [unifyF] at e
      split at e
      · cases e
      · exact hb _ _ _ _ _ hP e
      · cases x with
        | var n =>
          simp only at e
          split at e
          · exact i1 _ _ _ hb _ _ _ _ _ hP e
          · cases y with
            | var m =>
              simp only at e
              split at e
              · exact i1 _ _ _ hb _ _ _ _ _ hP e
              · exact i2 _ _ _ hb _ _ _ _ _ hP e
            | con c => exact i2 _ _ _ hb _ _ _ _ _ hP e
            | app as => exact i2 _ _ _ hb _ _ _ _ _ hP e
        | con c =>
          cases y with
          | var m => exact i1 _ _ _ hb _ _ _ _ _ hP e
          | con d => simp only [Option.some.injEq, Prod.mk.injEq] at e; rw [← e.2.1]; exact hP
          | app as => simp only [Option.some.injEq, Prod.mk.injEq] at e; rw [← e.2.1]; exact hP
        | app as =>
          cases y with
          | var m => exact i1 _ _ _ hb _ _ _ _ _ hP e
          | con d => simp only [Option.some.injEq, Prod.mk.injEq] at e; rw [← e.2.1]; exact hP
          | app bs =>
            simp only at e
            split at e
            · exact i3 _ _ _ hb _ _ _ _ _ hP e
            · simp only [Option.some.injEq, Prod.mk.injEq] at e; rw [← e.2.1]; exact hP
    · intro n y b hb h s h' s' g hP e
      simp only [bindF] at e
      split at e
      · cases e
      · simp only [Option.some.injEq, Prod.mk.injEq] at e; rw [← e.2.1]; exact hP
      · split at e
        · cases e
        · rename_i e'
          simp only [Option.some.injEq, Prod.mk.injEq] at e
          rw [← e.2.1]
          exact hb _ _ _ _ _ hP e'
    · intro xs ys b hb h s h' s' g hP e
      cases xs with
      | nil =>
        cases ys with
        | nil => exact hb _ _ _ _ _ hP (by simpa only [unifyNF] using e)
        | cons y ys => simp only [unifyNF, Option.some.injEq, Prod.mk.injEq] at e; rw [← e.2.1]; exact hP
      | cons x xs =>
        cases ys with
        | nil => simp only [unifyNF, Option.some.injEq, Prod.mk.injEq] at e; rw [← e.2.1]; exact hP
        | cons y ys =>
          simp only [unifyNF] at e
          exact i1 _ _ _ (fun h s h' s' g hP e => i3 _ _ _ hb _ _ _ _ _ hP e) _ _ _ _ _ hP e

theorem forEach_keeps {σ α : Type} {P : σ → Prop} {b : α → Body σ} : ∀ {l : List α}, (∀ a ∈ l, Keeps P (b a)) → Keeps P (forEach l b)
  | [], _, h, s, h', s', g, hP, e => by simp only [forEach, Option.some.injEq, Prod.mk.injEq] at e; rw [← e.2.1]; exact hP
  | a :: l, hb, h, s, h', s', g, hP, e => by
    simp only [forEach] at e
    split at e
    · cases e
    · rename_i e'
      exact forEach_keeps (l := l) (fun a ha => hb a (by simp [ha])) _ _ _ _ _ (hb a (by simp) _ _ _ _ _ hP e') e
    · rename_i e' 
      simp only [Option.some.injEq] at e
      subst e
      exact hb a (by simp) _ _ _ _ _ hP (by assumption)

theorem lookup_keeps {P : List (WRule W × Option Nat) → Prop} {f : Nat} {ops : Ops} {d : List (WRule W)} {q : Tm}
    {body : WRule W → Option Nat → Body (US W)} (hb : ∀ r i, Keeps (fun s => P s.out) (body r i)) :
    Keeps (fun s => P s.out) (lookup f ops d q body) := by
  have ht : ∀ ir, Keeps (fun s : US W => P s.out) (tryRule f q body ir) := by
    intro ir h s h' s' g hP e
    simp only [tryRule] at e
    exact (unify_keeps f).1 _ _ _ (hb _ _) _ _ _ _ _ (by exact hP) e
  intro h s h' s' g hP e
  unfold lookup at e
  split at e
  · exact forEach_keeps (fun a _ => ht a) _ _ _ _ _ hP e
  · split at e
    · simp only [Option.some.injEq, Prod.mk.injEq] at e; rw [← e.2.1]; exact hP
    · split at e
      · split at e
        · split at e
          · exact hb _ _ _ _ _ _ _ hP e
          · simp only [Option.some.injEq, Prod.mk.injEq] at e; rw [← e.2.1]; exact hP
        · split at e
          · cases e
          · rename_i e'
            exact forEach_keeps (fun a _ => ht a) _ _ _ _ _ (hb _ _ _ _ _ _ _ hP e') e
          · simp only [Option.some.injEq] at e
            subst e
            exact hb _ _ _ _ _ _ _ hP (by assumption)
        · cases e
      · split at e
        · exact (unify_keeps f).1 _ _ _ (hb _ _) _ _ _ _ _ hP e
        · exact forEach_keeps (fun a _ => ht a) _ _ _ _ _ hP e
  · simp only [Option.some.injEq, Prod.mk.injEq] at e; rw [← e.2.1]; exact hP

/-- a signature that renaming variables cannot change -/
def Steady (x : Option (Tm × Nat)) : Prop := x = none ∨ ∃ c n, x = some (.con c, n)

theorem steady_lit {l : Lit W} (h : Plain l) : Steady (litSig l) := by
  cases l with
  | val k => exact .inl rfl
  | sub t =>
    obtain ⟨c, as, rfl⟩ := h t rfl
    exact .inr ⟨c, as.length, rfl⟩

theorem sig_ren {ρ : Nat → Nat} {x : Option (Tm × Nat)} (hx : Steady x) (t : Tm) : sig (t.sub fun n => .var (ρ n)) = x ↔ sig t = x := by
  match t with
  | .var n => simp [Tm.sub, sig]
  | .con c => simp [Tm.sub, sig]
  | .app [] => simp [Tm.sub, subL, sig]
  | .app (.con c :: as) => simp [Tm.sub, subL, sig, subL_eq_map]
  | .app (.var n :: as) => rcases hx with rfl | ⟨c, m, rfl⟩ <;> simp [Tm.sub, subL, sig]
  | .app (.app bs :: as) => rcases hx with rfl | ⟨c, m, rfl⟩ <;> simp [Tm.sub, subL, sig]

theorem litSig_ren {ρ : Nat → Nat} {x : Option (Tm × Nat)} (hx : Steady x) (l : Lit W) : litSig (renLit ρ l) = x ↔ litSig l = x := by
  cases l with
  | val k => rfl
  | sub t => exact sig_ren hx t

theorem count_variant {r s : WRule W} (h : WVariant r s) {x : Option (Tm × Nat)} (hx : Steady x) :
    (s.body.map litSig).count x = (r.body.map litSig).count x := by
  obtain ⟨ρ, -, -, h3⟩ := h
  rw [(h3.map litSig).count_eq]
  generalize r.body = b
  clear h3
  induction b with
  | nil => rfl
  | cons l b ih =>
    simp only [List.map_cons, List.count_cons, ih, beq_iff_eq, litSig_ren hx]

theorem head_variant {r s : WRule W} (h : WVariant r s) {x : Option (Tm × Nat)} (hx : Steady x) : sig s.head = x ↔ sig r.head = x := by
  obtain ⟨ρ, -, h2, -⟩ := h
  rw [h2, sig_ren hx]

theorem deref_sig {h : Heap} {f : Nat} {t t' : Tm} (ht : Named t) (e : derefF h f t = some t') : sig t' = sig t := by
  obtain ⟨c, as, rfl⟩ := ht
  cases f with
  | zero => simp [derefF] at e
  | succ f =>
    rw [deref_app] at e
    obtain ⟨as', rfl, h2⟩ := e
    cases h2 with
    | cons hd tl =>
      cases f with
      | zero => simp [derefF] at hd
      | succ f =>
        simp only [derefF, Option.some.injEq] at hd
        subst hd
        simp [sig, tl.length_eq]

theorem derefLit_sig {h : Heap} {f : Nat} {l l' : Lit W} (hl : Plain l) (e : derefLit h f l = some l') : litSig l' = litSig l := by
  cases l with
  | val k => simp only [derefLit, Option.some.injEq] at e; subst e; rfl
  | sub t =>
    simp only [derefLit, Option.map_eq_some_iff] at e
    obtain ⟨t', e, rfl⟩ := e
    exact deref_sig (hl t rfl) e

/-- what every rule that unfolding adds looks like -/
def Looks (head : Tm) (L R : List (Lit W)) (t : WRule W) : Prop :=
  sig t.head = sig head ∧ ∀ x, Steady x → ((L ++ R).map litSig).count x ≤ (t.body.map litSig).count x

theorem resolvent_keeps {f : Nat} {inf : W} {head : Tm} {L R : List (Lit W)} (hh : Named head) (hL : ∀ l ∈ L, Plain l) (hR : ∀ l ∈ R, Plain l)
    (s : WRule W) (i : Option Nat) : Keeps (fun st => ∀ t ∈ st.out, Looks head L R t.1) (resolvent f inf head L R s i) := by
  intro h st h' st' g hP e
  unfold resolvent at e
  split at e
  · rename_i t s' e1 e2
    simp only [Option.some.injEq, Prod.mk.injEq] at e
    obtain ⟨-, rfl, -⟩ := e
    have ht : Looks head L R t := by
      unfold derefR at e1
      split at e1
      · rename_i hd b e3 e4
        simp only [Option.some.injEq] at e1
        subst e1
        refine ⟨deref_sig hh e3, fun x _ => ?_⟩
        have h2 := Measure.forall₂_of_allSome e4
        rw [List.append_assoc] at h2
        obtain ⟨b1, b2, rfl, h3, h4⟩ := Measure.forall₂_append_inv h2
        obtain ⟨b3, b4, rfl, h5, h6⟩ := Measure.forall₂_append_inv h4
        have hc : ∀ {l l' : List (Lit W)}, (∀ a ∈ l, Plain a) → List.Forall₂ (fun a b => derefLit h f a = some b) l l' → l'.map litSig = l.map litSig := by
          intro l l' hl h2
          induction h2 with
          | nil => rfl
          | cons hd _ ih =>
            rw [List.map_cons, List.map_cons, derefLit_sig (hl _ (by simp)) hd, ih fun a ha => hl a (by simp [ha])]
        simp only [List.map_append, List.count_append, hc hL h3, hc hR h6]
        omega
      · cases e1
    have ht' : ∀ t', (t' = t ∨ t' = ⟨t.head, t.body ++ [.val inf]⟩) → ∀ k, Looks head L R (freshR k t').1 := by
      intro t' h' k
      have hl : Looks head L R t' := by
        rcases h' with rfl | rfl
        · exact ht
        · refine ⟨ht.1, fun x hx => (ht.2 x hx).trans ?_⟩
          simp only [List.map_append, List.count_append]
          omega
      have hv := Hook.fresh_variant k t'
      have hs : Steady (sig head) := by
        obtain ⟨c, as, rfl⟩ := hh
        exact .inr ⟨c, as.length, rfl⟩
      refine ⟨(head_variant hv hs).2 hl.1, fun x hx => ?_⟩
      rw [count_variant hv hx]
      exact hl.2 x hx
    intro u hu
    rcases List.mem_append.1 hu with hu | hu
    · exact hP u hu
    · rw [List.mem_singleton] at hu
      subst hu
      apply ht'
      split
      · exact .inl rfl
      · split
        · exact .inr rfl
        · exact .inl rfl
  · cases e

theorem pops_perm {α : Type} : ∀ (l : List Nat) (p : List α), l.Pairwise (· > ·) →
    p.Perm (l.foldl (fun l i => l.eraseIdx i) p ++ l.filterMap fun i => p[i]?)
  | [], p, _ => by simp
  | i :: l, p, h => by
    rw [List.pairwise_cons] at h
    have e : (l.filterMap fun j => (p.eraseIdx i)[j]?) = l.filterMap fun j => p[j]? :=
      List.filterMap_congr fun j hj => List.getElem?_eraseIdx_of_lt (h.1 j hj)
    have ih := pops_perm l (p.eraseIdx i) h.2
    rw [e] at ih
    rw [List.foldl_cons, List.filterMap_cons]
    by_cases hi : i < p.length
    · rw [List.getElem?_eq_getElem hi]
      refine (List.getElem_cons_eraseIdx_perm hi).symm.trans ((ih.cons p[i]).trans ?_)
      exact List.perm_middle.symm
    · rw [List.getElem?_eq_none (by omega)]
      rw [List.eraseIdx_of_length_le (by omega)] at ih ⊢
      exact ih

theorem minus_perm {α : Type} (p : List α) (S : Finset Nat) : p.Perm (minus p S ++ (S.sort (· ≥ ·)).filterMap fun i => p[i]?) :=
  pops_perm _ p S.sortedGT_sort.pairwise

/-- cancelling the rules that stay -/
theorem cancel (ho : o.Lawful) {p new : List (WRule W)} {S : Finset Nat} (h : o.progEq false (minus p S ++ new) p = true) (x : WRule W) :
    new.countP (o.same x) = ((S.sort (· ≥ ·)).filterMap fun i => p[i]?).countP (o.same x) := by
  obtain ⟨q', h1, h2⟩ := (RuleOps.C17_eq ho (by simp)).1 h
  have hc := RuleOps.count_forall₂ ho h2 x
  rw [h1.countP_eq] at hc
  rw [(minus_perm p S).countP_eq (l₁ := p), List.countP_append, List.countP_append] at hc
  omega

/-- **C76 (candidates).**  If all subgoals of `r` have names and the check `safe_by_rev` accepts replacing the rules `S` by
`r`, then all rules of `S` are among the candidates of `prune_r_S`. -/
theorem C76_candidates (ho : Faithful o) {f : Nat} {ops : Ops} {inf : W} {k : Nat} {p : Prog W} {r : WRule W} {S : Finset Nat} {j : Nat}
    (hh : Named r.head) (hr : ∀ l ∈ r.body, Plain l) (hS : ∀ i ∈ S, i < p.rules.length)
    (h : safeByRev f o ops inf k p r S j = some true) : ∃ Qs, prune p r j = some Qs ∧ S ⊆ Qs := by
  unfold safeByRev at h
  split at h
  · rename_i u st e
    simp only [Option.some.injEq] at h
    unfold Unfold.unfold at e
    simp only [fold, List.getElem?_cons_zero] at e
    split at e
    · simp [Unfold.assertion] at e
    · simp [Unfold.assertion] at e
    · rename_i q hq
      split at e
      · cases e
      · simp [Unfold.assertion] at e
      · split at e
        · cases e
        · rename_i h' st' g e'
          simp only [Option.some.injEq, Prod.mk.injEq, List.erase_cons_head] at e
          obtain ⟨rfl, rfl, rfl⟩ := e
          have hout := lookup_keeps (P := fun out => ∀ t ∈ out, Looks r.head (r.body.take j) (r.body.drop (j + 1)) t.1)
            (fun s i => resolvent_keeps hh (fun l hl => hr l (List.mem_of_mem_take hl)) (fun l hl => hr l (List.mem_of_mem_drop hl)) s i)
            _ _ _ _ _ (by simp) e'
          simp only [prune, hq, Option.some.injEq, exists_eq_left']
          intro i hi
          have hlt := hS i hi
          simp only [Finset.mem_filter, Finset.mem_range, hlt, true_and]
          refine ⟨p.rules[i], by simp [hlt], ?_⟩
          have hc := cancel ho.lawful h p.rules[i]
          have hpos : 0 < ((S.sort (· ≥ ·)).filterMap fun i => p.rules[i]?).countP (o.same p.rules[i]) := by
            rw [List.countP_pos_iff]
            exact ⟨p.rules[i], List.mem_filterMap.2 ⟨i, (Finset.mem_sort _).2 hi, by simp [hlt]⟩, ho.lawful.refl _⟩
          rw [← hc, List.countP_pos_iff] at hpos
          obtain ⟨t, ht, hs⟩ := hpos
          obtain ⟨t', ht', rfl⟩ := List.mem_map.1 ht
          obtain ⟨l1, l2⟩ := hout t' ht'
          have hv := ho.variant _ _ (ho.lawful.symm _ _ hs)
          have hst : Steady (sig r.head) := by
            obtain ⟨c, as, e⟩ := hh
            rw [e]
            exact .inr ⟨c, as.length, rfl⟩
          simp only [keeps, Bool.and_eq_true, decide_eq_true_eq]
          refine ⟨(head_variant hv hst).2 l1, ?_⟩
          have hp : ((r.body.map litSig).erase (litSig (.sub q : Lit W))).Perm ((r.body.take j ++ r.body.drop (j + 1)).map litSig) := by
            have hb := Unfold.split_body hq
            have : (r.body.map litSig).Perm (litSig (.sub q : Lit W) :: (r.body.take j ++ r.body.drop (j + 1)).map litSig) := by
              conv_lhs => rw [hb]
              rw [← List.map_cons]
              exact List.perm_middle.map _
            exact (this.erase _).trans (by rw [List.erase_cons_head])
          rw [within_iff]
          intro x hx
          rw [hp.mem_iff] at hx
          obtain ⟨l, hl, rfl⟩ := List.mem_map.1 hx
          have hst : Steady (litSig l) := by
            refine steady_lit (hr l ?_)
            rcases List.mem_append.1 hl with hl | hl
            · exact List.mem_of_mem_take hl
            · exact List.mem_of_mem_drop hl
          rw [hp.count_eq, count_variant hv hst]
          exact l2 _ hst
  · cases h

/-! ### Folds -/

theorem evt_powerset {P : Finset Nat → Nat → Prop} (Qs : Finset Nat) (h : ∀ S ⊆ Qs, Evt (P S)) : Evt fun f => ∀ S ⊆ Qs, P S f := by
  have : ∀ l : List (Finset Nat), (∀ S ∈ l, Evt (P S)) → Evt fun f => ∀ S ∈ l, P S f := by
    intro l
    induction l with
    | nil => exact fun _ => .of_all fun f => by simp
    | cons S l ih =>
      intro h
      exact ((h S (by simp)).and (ih fun T hT => h T (by simp [hT]))).mono fun f e T hT => by
        rcases List.mem_cons.1 hT with rfl | hT
        · exact e.1
        · exact e.2 T hT
  refine (this Qs.powerset.toList fun S hS => h S ?_).mono fun f e S hS => e S ?_
  · simpa using hS
  · simpa using hS

theorem pre_subset {ops : Ops} {k : Nat} {p : Prog W} {r : WRule W} {j : Nat} {q : Tm} (h : Pre ops k (fold p r ∅) (fold p r ∅) 0 j r q)
    (S : Finset Nat) : Pre ops k (fold p r S) (fold p r S) 0 j r q := by
  refine ⟨rfl, h.goal, h.below, fun s hs => h.heads s ?_, h.kind, h.notInput⟩
  simp only [fold, List.mem_cons] at hs ⊢
  rcases hs with rfl | hs
  · exact .inl rfl
  · right
    have := (minus_perm p.rules S).mem_iff.2 (List.mem_append_left _ hs)
    simpa [minus] using this

/-- is the check accepted, given enough fuel? -/
def Reversible (o : RuleOps (WRule W) S') (ops : Ops) (k : Nat) (p : Prog W) (r : WRule W) (S : Finset Nat) (j : Nat) : Prop :=
  Evt fun f => safeByRev f o ops infty k p r S j = some true

/-- **C76 (reversible folds).**  Let the subgoals of the proposed rule `r` have names.  The search for `r` terminates, in both
implementations with the same answer.  It yields at most one program; that program is a fold by `r` that passes the
check, and each of its solutions solves the original program.  If there is any set of rules for which the check would be passed, it yields one. -/
theorem C76_reversible (ho : Faithful o) {ord : Finset Nat → List Nat} (hord : ∀ S, (ord S).Perm (S.sort (· ≤ ·))) {ops : Ops} {k : Nat}
    {p : Prog W} {r : WRule W} {q : Tm} (h : Pre ops k (fold p r ∅) (fold p r ∅) 0 0 r q) (hh : Named r.head) (hr : ∀ l ∈ r.body, Plain l)
    {d : GTm → W} (hd : Data ops p.inputs d) :
    ∃ ps : List (Prog W), Evt (fun f => reversibleOf f o ord ops infty k p r = some ps) ∧ Evt (fun f => driveOf f o ord ops infty k p r = some ps) ∧
      ps.length ≤ 1 ∧
      (∀ new ∈ ps, (∃ S, (∀ i ∈ S, i < p.rules.length) ∧ new = fold p r S ∧ Reversible o ops k p r S 0) ∧
        ∀ v, Sol new.rules d v → Sol p.rules d v) ∧
      ((∃ S, (∀ i ∈ S, i < p.rules.length) ∧ Reversible o ops k p r S 0) → ps ≠ []) := by
  have hex : ∀ S, ∃ b, Evt (fun f => safeByRev f o ops infty k p r S 0 = some b) ∧
      (b = true → ∀ v, Sol (fold p r S).rules d v → Sol p.rules d v) := fun S => Fold.C34_reversible ho (pre_subset h S) hd
  choose ok hok hsol using hex
  have hg := h.goal
  obtain ⟨Qs, hQ⟩ : ∃ Qs, prune p r 0 = some Qs := by simp only [prune, hg]; exact ⟨_, rfl⟩
  have hQr : ∀ i ∈ Qs, i < p.rules.length := by
    intro i hi
    simp only [prune, hg, Option.some.injEq] at hQ
    rw [← hQ, Finset.mem_filter, Finset.mem_range] at hi
    exact hi.1
  have hall := evt_powerset Qs fun S _ => hok S
  have hrev : ∀ S, Reversible o ops k p r S 0 ↔ ok S = true := by
    intro S
    constructor
    · intro e
      obtain ⟨f, e1, e2⟩ := (e.and (hok S)).exists'
      rw [e1, Option.some.injEq] at e2
      exact e2.symm
    · intro e
      have := hok S
      rw [e] at this
      exact this
  obtain ⟨v, -, -, -, -, hv1, hv2, -, -, -⟩ := C76_subsets (check := fun S => some (ok S)) (ok := ok) hord (Qs := Qs) fun T _ => rfl
  have hrun : ∀ f, (∀ S ⊆ Qs, safeByRev f o ops infty k p r S 0 = some (ok S)) →
      reversibleOf f o ord ops infty k p r = some ((best ok ord (Qs.card + 1) Qs).map (fold p r)).toList ∧
      driveOf f o ord ops infty k p r = some ((best ok ord (Qs.card + 1) Qs).map (fold p r)).toList := by
    intro f e
    obtain ⟨st, new, e1, -⟩ := memoF_spec (check := fun S => safeByRev f o ops infty k p r S 0) hord (Qs.card + 1) Qs ⟨[], []⟩ (Nat.lt_succ_self _) e (by intro e he; simp at he)
    obtain ⟨tr, e2⟩ := plainF_spec (check := fun S => safeByRev f o ops infty k p r S 0) hord (Qs.card + 1) Qs [] (Nat.lt_succ_self _) e
    simp only [reversibleOf, driveOf, hQ, foldRS, e1, e2, Option.map_some, and_self]
  refine ⟨_, hall.mono fun f e => (hrun f e).1, hall.mono fun f e => (hrun f e).2, ?_, ?_, ?_⟩
  · cases best ok ord (Qs.card + 1) Qs <;> simp
  · intro new hn
    rw [Option.mem_toList, Option.map_eq_some_iff] at hn
    obtain ⟨S, hS, rfl⟩ := hn
    obtain ⟨h1, h2⟩ := best_some hord hS
    exact ⟨⟨S, fun i hi => hQr i (h1 hi), rfl, (hrev S).2 h2⟩, hsol S h2⟩
  · rintro ⟨S, hS, e⟩
    obtain ⟨f, e'⟩ := e.exists'
    obtain ⟨Qs', hQ', hsub⟩ := C76_candidates ho hh hr hS e'
    rw [hQ, Option.some.injEq] at hQ'
    subst hQ'
    intro hn
    have hb : best ok ord (Qs.card + 1) Qs = none := by
      cases hb : best ok ord (Qs.card + 1) Qs with
      | none => rfl
      | some T => rw [hb] at hn; simp at hn
    have := best_none hord (Nat.lt_succ_self _) hb S hsub
    rw [(hrev S).1 e] at this
    cases this

/-- **C76 (`reversible_megafolds`).**  For proposals with named subgoals the enumeration terminates.  It yields, in the order of the proposals, one fold
for each proposal by which rules can be folded reversibly, and nothing else. -/
theorem C76_megafolds (ho : Faithful o) {ord : Finset Nat → List Nat} (hord : ∀ S, (ord S).Perm (S.sort (· ≤ ·))) {ops : Ops} {k : Nat}
    {p : Prog W} {d : GTm → W} (hd : Data ops p.inputs d) :
    ∀ {Rs : List (WRule W)}, (∀ r ∈ Rs, (∃ q, Pre ops k (fold p r ∅) (fold p r ∅) 0 0 r q) ∧ Named r.head ∧ ∀ l ∈ r.body, Plain l) →
    ∃ pss : List (List (Prog W)), Evt (fun f => reversibleMegafolds f o ord ops infty k p Rs = some pss.flatten) ∧
      List.Forall₂ (fun r ps => ps.length ≤ 1 ∧ (ps ≠ [] ↔ ∃ S, (∀ i ∈ S, i < p.rules.length) ∧ Reversible o ops k p r S 0) ∧
        ∀ new ∈ ps, (∃ S, (∀ i ∈ S, i < p.rules.length) ∧ new = fold p r S ∧ Reversible o ops k p r S 0) ∧
          ∀ v, Sol new.rules d v → Sol p.rules d v) Rs pss
  | [], _ => ⟨[], .of_all fun f => rfl, .nil⟩
  | r :: Rs, h => by
    obtain ⟨⟨q, hq⟩, hh, hr⟩ := h r (by simp)
    obtain ⟨ps, e1, -, h1, h2, h3⟩ := C76_reversible ho hord hq hh hr hd
    obtain ⟨pss, e2, h4⟩ := C76_megafolds ho hord hd (Rs := Rs) fun s hs => h s (by simp [hs])
    refine ⟨ps :: pss, (e1.and e2).mono fun f e => ?_, .cons ⟨h1, ⟨fun hn => ?_, h3⟩, h2⟩ h4⟩
    · have e2 := e.2
      simp only [reversibleMegafolds] at e2 ⊢
      simp only [collect, e.1, e2, List.flatten_cons]
    · obtain ⟨new, hnew⟩ := List.exists_mem_of_ne_nil ps hn
      obtain ⟨⟨S, a, -, b⟩, -⟩ := h2 new hnew
      exact ⟨S, a, b⟩

/-! ### Partially safe folds -/

theorem unfold_alone {f : Nat} {ops : Ops} {inf : W} {k : Nat} {p defs : Prog W} {r : WRule W} {S : Finset Nat} {j : Nat} {u : List (WRule W)}
    {st : US W} (h : unfold f ops inf k ⟨[r], []⟩ defs 0 j = some (u, st, .done)) :
    unfold f ops inf k (fold p r S) defs 0 j = some (minus p.rules S ++ u, st, .done) := by
  unfold Unfold.unfold at h ⊢
  simp only [fold, List.getElem?_cons_zero, List.erase_cons_head] at h ⊢
  split at h
  · simp [Unfold.assertion] at h
  · simp [Unfold.assertion] at h
  · split at h
    · cases h
    · simp [Unfold.assertion] at h
    · split at h
      · cases h
      · simp only [Option.some.injEq, Prod.mk.injEq, List.nil_append] at h
        obtain ⟨rfl, rfl, rfl⟩ := h
        rfl

theorem range_getElem? {α : Type} : ∀ l : List α, ((List.range l.length).filterMap fun j => l[j]?) = l
  | [] => rfl
  | x :: l => by
    rw [List.length_cons, List.range_succ_eq_map, List.filterMap_cons]
    simp only [List.getElem?_cons_zero, List.filterMap_map]
    conv_rhs => rw [← range_getElem? l]
    rfl

theorem countP_index {α β : Type} {A : List α} {g : α → Option Nat} {l : List β} (h : (A.filterMap g).Perm (List.range l.length)) (P : β → Bool) :
    l.countP P = A.countP fun a => ((g a).bind fun i => (l[i]?).map P).getD false := by
  conv_lhs => rw [← range_getElem? l]
  rw [List.countP_filterMap, ← h.countP_eq, List.countP_filterMap]
  refine List.countP_congr fun a _ => ?_
  cases g a <;> simp

section
variable {ord : List Nat → List Nat}

/-- `A` is the alignment of `p` with `u` -/
structure Aligned (o : RuleOps (WRule W) S') (p u : List (WRule W)) (A : List (Option Nat × Option Nat)) : Prop where
  fst : A.filterMap Prod.fst = List.range p.length
  snd : (A.filterMap Prod.snd).Perm (List.range u.length)
  pair : ∀ i j, (some i, some j) ∈ A → ∃ r s, p[i]? = some r ∧ u[j]? = some s ∧ o.same r s = true
  rest : ∀ i j, (some i, none) ∈ A → (none, some j) ∈ A → ∀ r s, p[i]? = some r → u[j]? = some s → o.same r s = false

theorem accepted_iff (ho : o.Lawful) {p u : List (WRule W)} {S : Finset Nat} : o.progEq false p (minus p S ++ u) = true ↔
    u.length = ((S.sort (· ≥ ·)).filterMap fun i => p[i]?).length ∧ ∀ x, u.countP (o.same x) = ((S.sort (· ≥ ·)).filterMap fun i => p[i]?).countP (o.same x) := by
  have hm := minus_perm p S
  constructor
  · intro h
    have h := Measure.progEq_symm ho h
    refine ⟨?_, cancel ho h⟩
    obtain ⟨q', h1, h2⟩ := (RuleOps.C17_eq ho (by simp)).1 h
    have := h2.length_eq
    rw [h1.length_eq, hm.length_eq, List.length_append, List.length_append] at this
    omega
  · rintro ⟨h1, h2⟩
    rw [RuleOps.C17_eq ho (by simp)]
    refine (RuleOps.corr_iff_count ho).2 ⟨?_, fun x => ?_⟩
    · rw [hm.length_eq, List.length_append, List.length_append, h1]
    · rw [hm.countP_eq, List.countP_append, List.countP_append, h2 x]

/-- if every new rule has a partner, the partners are accepted -/
theorem aligned_accepts (ho : o.Lawful) {p u : List (WRule W)} {A : List (Option Nat × Option Nat)} (hA : Aligned o p u A)
    (hall : ((A.filter fun a => a.2.isSome).all fun a => a.1.isSome) = true) :
    o.progEq false p (minus p ((A.filter fun a => a.2.isSome).filterMap Prod.fst).toFinset ++ u) = true := by
  set A' := A.filter fun a => a.2.isSome with hA'
  have hnd : (A'.filterMap Prod.fst).Nodup := by
    have : (A'.filterMap Prod.fst).Sublist (List.range p.length) := by
      rw [← hA.fst]; exact List.filter_sublist.filterMap _
    exact this.nodup List.nodup_range
  have hperm : ((A'.filterMap Prod.fst).toFinset.sort (· ≥ ·)).Perm (A'.filterMap Prod.fst) := by
    refine (List.perm_ext_iff_of_nodup (Finset.sort_nodup _ _) hnd).2 fun i => ?_
    rw [Finset.mem_sort, List.mem_toFinset]
  have hsnd : A'.filterMap Prod.snd = A.filterMap Prod.snd := by
    rw [hA', List.filterMap_filter]
    refine List.filterMap_congr fun a _ => ?_
    cases a.2 <;> simp
  have hu : u.Perm ((A'.filterMap Prod.snd).filterMap fun j => u[j]?) := by
    rw [hsnd]
    refine .trans (.of_eq (range_getElem? u).symm) (hA.snd.symm.filterMap _)
  have hpair : ∀ a ∈ A', ∃ i j s t, a = (some i, some j) ∧ p[i]? = some s ∧ u[j]? = some t ∧ o.same s t = true := by
    intro a ha
    have h1 := List.all_eq_true.1 hall a ha
    rw [hA', List.mem_filter] at ha
    obtain ⟨x, y⟩ := a
    obtain ⟨i, rfl⟩ := Option.isSome_iff_exists.1 h1
    obtain ⟨j, rfl⟩ := Option.isSome_iff_exists.1 ha.2
    obtain ⟨s, t, h2, h3, h4⟩ := hA.pair i j ha.1
    exact ⟨i, j, s, t, rfl, h2, h3, h4⟩
  have key : ∀ B : List (Option Nat × Option Nat), (∀ a ∈ B, ∃ i j s t, a = (some i, some j) ∧ p[i]? = some s ∧ u[j]? = some t ∧ o.same s t = true) →
      ((B.filterMap Prod.snd).filterMap fun j => u[j]?).length = ((B.filterMap Prod.fst).filterMap fun i => p[i]?).length ∧
      ∀ x, ((B.filterMap Prod.snd).filterMap fun j => u[j]?).countP (o.same x) = ((B.filterMap Prod.fst).filterMap fun i => p[i]?).countP (o.same x) := by
    intro B
    induction B with
    | nil => simp
    | cons a B ih =>
      intro h
      obtain ⟨i, j, s, t, rfl, h1, h2, h3⟩ := h a List.mem_cons_self
      obtain ⟨h4, h5⟩ := ih fun a ha => h a (by simp [ha])
      simp only [List.filterMap_cons, h1, h2, List.length_cons, List.countP_cons, h4, h5, true_and]
      intro x
      rw [RuleOps.same_congr ho h3]
  obtain ⟨k1, k2⟩ := key A' hpair
  rw [accepted_iff ho]
  have hp2 := hperm.filterMap fun i => p[i]?
  exact ⟨by rw [hu.length_eq, k1, hp2.length_eq], fun x => by rw [hu.countP_eq, k2 x, hp2.countP_eq]⟩

/-- if some new rule has no partner, nothing is accepted -/
theorem aligned_rejects (ho : o.Lawful) {p u : List (WRule W)} {A : List (Option Nat × Option Nat)} (hA : Aligned o p u A)
    (hall : ((A.filter fun a => a.2.isSome).all fun a => a.1.isSome) = false) {S : Finset Nat} (h : o.progEq false p (minus p S ++ u) = true) :
    False := by
  obtain ⟨a, ha, hn⟩ := List.all_eq_false.1 hall
  rw [List.mem_filter] at ha
  obtain ⟨x, y⟩ := a
  obtain ⟨j, rfl⟩ : ∃ j, y = some j := Option.isSome_iff_exists.1 ha.2
  obtain rfl : x = none := by simpa using hn
  have hj : j ∈ List.range u.length := by
    rw [← hA.snd.mem_iff]
    exact List.mem_filterMap.2 ⟨_, ha.1, rfl⟩
  have hj := List.mem_range.1 hj
  have hc := (accepted_iff ho).1 h |>.2 u[j]
  have hle : ((S.sort (· ≥ ·)).filterMap fun i => p[i]?).countP (o.same u[j]) ≤ p.countP (o.same u[j]) := by
    rw [(minus_perm p S).countP_eq, List.countP_append]
    omega
  rw [← hc, countP_index hA.snd, countP_index (.of_eq hA.fst)] at hle
  have hp := List.perm_cons_erase ha.1
  rw [hp.countP_eq, hp.countP_eq, List.countP_cons, List.countP_cons] at hle
  have hmono : ∀ a ∈ A, ((a.1.bind fun i => (p[i]?).map (o.same u[j])).getD false) = true →
      ((a.2.bind fun i => (u[i]?).map (o.same u[j])).getD false) = true := by
    rintro ⟨x, y⟩ hm h1
    cases x with
    | none => simp at h1
    | some i =>
      have hi : i ∈ List.range p.length := by
        rw [← hA.fst]
        exact List.mem_filterMap.2 ⟨_, hm, rfl⟩
      have hi := List.mem_range.1 hi
      simp only [Option.bind_some, List.getElem?_eq_getElem hi, Option.map_some, Option.getD_some] at h1
      cases y with
      | none =>
        have := hA.rest i j hm ha.1 _ _ (List.getElem?_eq_getElem hi) (List.getElem?_eq_getElem hj)
        rw [ho.symm _ _ h1] at this
        cases this
      | some j' =>
        obtain ⟨s, t, h2, h3, h4⟩ := hA.pair i j' hm
        rw [List.getElem?_eq_getElem hi, Option.some.injEq] at h2
        subst h2
        simp only [Option.bind_some, h3, Option.map_some, Option.getD_some]
        exact ho.trans _ _ _ h1 h4
  have hmono' := List.countP_mono_left (l := A.erase (none, some j)) fun a hm h1 => hmono a (List.mem_of_mem_erase hm) h1
  simp only [Option.bind_none, Option.getD_none, Option.bind_some, List.getElem?_eq_getElem hj, Option.map_some, Option.getD_some, ho.refl,
    Bool.false_eq_true, if_false, if_true] at hle
  omega

end

/-- **C76 (partially safe folds).**  For each proposal `partial_megafolds` terminates with at most one program.  It yields one
exactly if there is a set of rules for which the check `partially_safe` accepts, and every such set gives a program equal
to the one yielded. -/
theorem C76_partial (ho : Faithful o) {ord : List Nat → List Nat} (hord : ∀ l, (ord l).Perm l) {ops : Ops} {k : Nat}
    {p defs : Prog W} {r : WRule W} {q : Tm} (h : Pre ops k ⟨[r], []⟩ defs 0 0 r q) :
    ∃ ps : List (Prog W), Evt (fun f => partialOf f o ord ops infty k p defs r = some ps) ∧ ps.length ≤ 1 ∧
      (∀ new ∈ ps, ∃ S, (∀ i ∈ S, i < p.rules.length) ∧ new = fold p r S ∧ Evt fun f => partiallySafe f o ops infty k p defs r S 0 = some true) ∧
      ∀ S, (Evt fun f => partiallySafe f o ops infty k p defs r S 0 = some true) →
        ∃ new ∈ ps, o.progEq false new.rules (fold p r S).rules = true := by
  obtain ⟨u, st, h1, -⟩ := Unfold.C33_same_step h
  have hsafe : ∀ S, Evt fun f => partiallySafe f o ops infty k p defs r S 0 = some (o.progEq false p.rules (minus p.rules S ++ u)) := by
    intro S
    refine h1.mono fun f e => ?_
    simp only [partiallySafe, unfold_alone e]
  have hdet : ∀ S, (Evt fun f => partiallySafe f o ops infty k p defs r S 0 = some true) → o.progEq false p.rules (minus p.rules S ++ u) = true := by
    intro S e
    obtain ⟨f, e1, e2⟩ := (e.and (hsafe S)).exists'
    rw [e1, Option.some.injEq] at e2
    exact e2.symm
  have hA : Aligned o p.rules u (o.align ord p.rules u) := by
    obtain ⟨a1, a2, -, a4, a5⟩ := RuleOps.C17_align ho.lawful hord p.rules u
    exact ⟨a1, a2, a4, a5⟩
  cases hall : ((o.align ord p.rules u).filter fun a => a.2.isSome).all fun a => a.1.isSome with
  | true =>
    set S0 := (((o.align ord p.rules u).filter fun a => a.2.isSome).filterMap Prod.fst).toFinset with hS0
    have hacc := aligned_accepts ho.lawful hA hall
    rw [← hS0] at hacc
    have hs0 := hsafe S0
    rw [hacc] at hs0
    refine ⟨[fold p r S0], (h1.and hs0).mono fun f e => ?_, by simp, ?_, ?_⟩
    · simp only [partialOf, foldsBy, e.1, hall, if_true, ← hS0, e.2]
    · intro new hn
      rw [List.mem_singleton] at hn
      refine ⟨S0, fun i hi => ?_, hn, hs0⟩
      rw [hS0, List.mem_toFinset] at hi
      have : i ∈ List.range p.rules.length := by
        rw [← hA.fst]
        exact (List.filter_sublist.filterMap _).subset hi
      exact List.mem_range.1 this
    · intro S e
      refine ⟨fold p r S0, List.mem_singleton_self _, ?_⟩
      have hS := (accepted_iff ho.lawful).1 (hdet S e)
      have hS' := (accepted_iff ho.lawful).1 hacc
      have m1 := minus_perm p.rules S
      have m2 := minus_perm p.rules S0
      rw [RuleOps.C17_eq ho.lawful (by simp)]
      refine (RuleOps.corr_iff_count ho.lawful).2 ⟨?_, fun x => ?_⟩
      · have l1 := m1.length_eq
        have l2 := m2.length_eq
        rw [List.length_append] at l1 l2
        simp only [fold, List.length_cons]
        have := hS.1
        have := hS'.1
        omega
      · have l1 := m1.countP_eq (o.same x)
        have l2 := m2.countP_eq (o.same x)
        rw [List.countP_append] at l1 l2
        simp only [fold, List.countP_cons]
        have := hS.2 x
        have := hS'.2 x
        omega
  | false =>
    refine ⟨[], h1.mono fun f e => ?_, by simp, by simp, ?_⟩
    · simp only [partialOf, foldsBy, e, hall, Bool.false_eq_true, if_false]
    · intro S e
      exact (aligned_rejects ho.lawful hA hall (hdet S e)).elim

/-- **C76 (`partial_megafolds`).**  The enumeration yields, in the order of the proposals, one fold for each proposal for which
`partially_safe` accepts some set of rules, and nothing else. -/
theorem C76_partial_megafolds (ho : Faithful o) {ord : List Nat → List Nat} (hord : ∀ l, (ord l).Perm l) {ops : Ops} {k : Nat} {p defs : Prog W} :
    ∀ {Rs : List (WRule W)}, (∀ r ∈ Rs, ∃ q, Pre ops k ⟨[r], []⟩ defs 0 0 r q) →
    ∃ pss : List (List (Prog W)), Evt (fun f => partialMegafolds f o ord ops infty k p defs Rs = some pss.flatten) ∧
      List.Forall₂ (fun r ps => ps.length ≤ 1 ∧
        (∀ new ∈ ps, ∃ S, (∀ i ∈ S, i < p.rules.length) ∧ new = fold p r S ∧ Evt fun f => partiallySafe f o ops infty k p defs r S 0 = some true) ∧
        ∀ S, (Evt fun f => partiallySafe f o ops infty k p defs r S 0 = some true) →
          ∃ new ∈ ps, o.progEq false new.rules (fold p r S).rules = true) Rs pss
  | [], _ => ⟨[], .of_all fun f => rfl, .nil⟩
  | r :: Rs, h => by
    obtain ⟨q, hq⟩ := h r (by simp)
    obtain ⟨ps, e1, h1⟩ := C76_partial (p := p) ho hord hq
    obtain ⟨pss, e2, h4⟩ := C76_partial_megafolds ho hord (p := p) (defs := defs) (Rs := Rs) fun s hs => h s (by simp [hs])
    refine ⟨ps :: pss, (e1.and e2).mono fun f e => ?_, .cons h1 h4⟩
    have e2 := e.2
    simp only [partialMegafolds] at e2 ⊢
    simp only [collect, e.1, e2, List.flatten_cons]

end

/-! ### Variables as subgoals -/
open Unfold (at' ltOps)
open Fold (eqOps eqOps_faithful)

/-- values as constants -/
def tvCode : TV → Const
  | .t => .str "t"
  | .f => .str "f"

/-- `goal(Y) += g(Y) * Y.` -/
def varP : Prog TV := ⟨[⟨at' "goal" [.var 0], [.sub (at' "g" [.var 0]), .sub (.var 0)]⟩], []⟩
/-- `f(X) += g(X) * X.` -/
def varD : Prog TV := ⟨[⟨at' "f" [.var 1], [.sub (at' "g" [.var 1]), .sub (.var 1)]⟩], []⟩

/-- **C76 (variables as subgoals: proposals).**  With a variable as a subgoal the early test is wrong: it drops `goal(Y) += f(Y)`, the fold of
`goal(Y) += g(Y) * Y` by `f(X) += g(X) * X`, although unfolding that rule gives back a variant of the original rule. -/
theorem C76_variable_overlooked {S' : Type} [DecidableEq S'] (o : RuleOps (WRule TV) S') :
    proposals 20 o id id tvCode true true varP varD 2 = some ([], 2) ∧
    ∃ t, (varP.rules.map fun p => varD.rules.map fun d => (ruleFolds 20 id tvCode p d).map fun us => us.map (foldedRule p)) = [[some [t]]] ∧
      ∃ st s, unfold 20 ltOps TV.t 2 ⟨[t], []⟩ varD 0 0 = some ([s], st, .done) ∧ ∀ p ∈ varP.rules, WVariant p s := by
  refine ⟨?_, ⟨at' "goal" [.var 0], [.sub (at' "f" [.var 0])]⟩, by decide +kernel,
    ⟨[(⟨at' "goal" [.var 3], [.sub (at' "g" [.var 3]), .sub (.var 3)]⟩, some 0)], 4⟩,
    ⟨at' "goal" [.var 3], [.sub (at' "g" [.var 3]), .sub (.var 3)]⟩, by decide +kernel, ?_⟩
  · have : (collect (fun d => collect (propose 20 id id tvCode true true d) varP.rules) varD.rules) = some [] := by decide +kernel
    simp only [proposals, this, Option.map_some, List.foldl_nil]
  · intro p hp
    simp only [varP, List.mem_singleton] at hp
    subst hp
    refine ⟨fun n => n + 3, fun a _ b _ h => by simpa using h, by simp [Tm.sub, subL], ?_⟩
    simp [renLit, Tm.sub, subL]

/-- `b(c(x)) += d.  goal += d * c(x).` -/
def lostP : Prog TV := ⟨[⟨at' "b" [at' "c" [at' "x" []]], [.sub (at' "d" [])]⟩,
  ⟨at' "goal" [], [.sub (at' "d" []), .sub (at' "c" [at' "x" []])]⟩], []⟩
/-- `goal += b(X) * X.` -/
def lostR : WRule TV := ⟨at' "goal" [], [.sub (at' "b" [.var 0]), .sub (.var 0)]⟩

/-- **C76 (variables as subgoals: candidates).**  Replacing `goal += d * c(x)` by `goal += b(X) * X`, where `b(c(x)) += d`, passes the check, but
the replaced rule is not among the candidates, and the search yields nothing. -/
theorem C76_candidate_overlooked : safeByRev 20 eqOps ltOps .t 1 lostP lostR {1} 0 = some true ∧ prune lostP lostR 0 = some ∅ ∧
    (foldRS (fun S => safeByRev 20 eqOps ltOps .t 1 lostP lostR S 0) (fun S => (List.range 2).filter (· ∈ S)) ∅).map Prod.fst = some none := by
  decide +kernel

/-! ### Examples -/

section Examples

/-- `goal += g * e.  f += g.` -/
def exP : Prog TV := ⟨[⟨at' "goal" [], [.sub (at' "g" []), .sub (at' "e" [])]⟩, ⟨at' "f" [], [.sub (at' "g" [])]⟩], [at' "g" [], at' "e" []]⟩
/-- `goal += f * e.` -/
def exR : WRule TV := ⟨at' "goal" [], [.sub (at' "f" []), .sub (at' "e" [])]⟩

theorem exPre : Pre ltOps 0 (fold exP exR ∅) (fold exP exR ∅) 0 0 exR (at' "f" []) where
  rule := rfl
  goal := rfl
  below := by intro n hn; simp [rvars, bodyVars, litVars, exR] at hn
  heads := by
    have : (fold exP exR ∅).rules = exR :: exP.rules := by decide +kernel
    rw [this]
    intro s hs
    simp [exP] at hs
    rcases hs with rfl | rfl | rfl <;> exact ⟨_, _, rfl, by decide, by decide⟩
  kind := ⟨_, _, rfl, by decide, by decide⟩
  notInput := by
    intro t ht θ φ h
    simp [fold, exP] at ht
    have := congrArg Subtype.val h
    rcases ht with rfl | rfl <;> simp [gsub] at this

theorem exPlain : ∀ l ∈ exR.body, Plain l := by
  intro l hl t ht
  simp only [exR, List.mem_cons, List.not_mem_nil, or_false] at hl
  rcases hl with rfl | rfl <;> cases ht <;> exact ⟨_, _, rfl⟩

/-- the fold proposed, and what is found -/
example : ((collect (fun d => collect (propose 20 id id tvCode true true d) exP.rules) exP.rules) = some [exR]) ∧
    prune exP exR 0 = some {0} ∧
    (reversibleOf 20 eqOps (fun S => (List.range 2).filter (· ∈ S)) ltOps .t 0 exP exR).map (List.map Prog.rules) =
      some [[exR, ⟨at' "f" [], [.sub (at' "g" [])]⟩]] := by decide +kernel

example {d : GTm → TV} (hd : Data ltOps exP.inputs d) : ∃ ps : List (Prog TV),
    Evt (fun f => reversibleOf f eqOps (fun S => S.sort (· ≤ ·)) ltOps infty 0 exP exR = some ps) ∧ ps.length ≤ 1 := by
  obtain ⟨ps, h1, -, h2, -⟩ := C76_reversible (p := exP) eqOps_faithful (ord := fun S => S.sort (· ≤ ·)) (fun _ => .refl _) exPre ⟨_, _, rfl⟩ exPlain hd
  exact ⟨ps, h1, h2⟩

/-- three candidates of which the first two, or the last two, pass: the sets tried with and without a table -/
example : foldRS (fun S => some (decide (S = {1, 2}))) (fun S => (List.range 3).filter (· ∈ S)) {0, 1, 2} = some (some {1, 2}, [{0, 1, 2}, {1, 2}]) ∧
    foldRS (fun S => some (decide (S = {0}))) (fun S => (List.range 3).filter (· ∈ S)) {0, 1, 2} =
      some (some {0}, [{0, 1, 2}, {1, 2}, {2}, ∅, {1}, {0, 2}, {0}]) ∧
    plainF (fun S => some (decide (S = {0}))) (fun S => (List.range 3).filter (· ∈ S)) 4 {0, 1, 2} [] =
      some (some {0}, [{0, 1, 2}, {1, 2}, {2}, ∅, {1}, ∅, {0, 2}, {2}, ∅, {0}]) := by decide +kernel

/-- the early test is passed, and fails, with named subgoals -/
example : within (bodyFns tvCode ⟨at' "f" [], [.sub (at' "g" []), .sub (at' "g" []), .val TV.t]⟩) (bodyFns tvCode (⟨at' "a" [],
      [.sub (at' "g" []), .sub (at' "h" []), .val TV.t, .sub (at' "g" [])]⟩ : WRule TV)) = true ∧
    within (bodyFns tvCode ⟨at' "f" [], [.sub (at' "g" []), .sub (at' "g" []), .val TV.t]⟩) (bodyFns tvCode (⟨at' "a" [],
      [.sub (at' "g" []), .sub (at' "h" []), .val TV.t]⟩ : WRule TV)) = false := by decide +kernel

end Examples
end FoldSearch
end Verif
