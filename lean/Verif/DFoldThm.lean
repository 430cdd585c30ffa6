/-
Property C82: undoing the derivation mapping of an unfolding.
-/
import Verif.DFold
import Verif.DUnfoldThm
import Verif.ReorderThm
import Verif.PropagateThm

set_option linter.unusedSectionVars false
set_option linter.unusedSimpArgs false

namespace Verif
open Tm Heap

namespace DFold
open DUnfold (Cfg Fits Valid Inst Like Step tr trL trAt sizeL)
open Unfold (Ops subLit)
open Sem
variable {W : Type}

/-! ### Specification -/

/-- all items of the derivation are ground -/
inductive Gr : DUnfold.Tree W → Prop
  | const (k : W) : Gr (.const k)
  | bi (t : Tm) : vars t = ∅ → Gr (.bi t)
  | node (n : Nat) (x : Tm) (ks : List (DUnfold.Tree W)) : vars x = ∅ → (∀ d ∈ ks, Gr d) → Gr (.node n x ks)

/-- the records are those of how the rules were made: rule `kept.length + u` of the new program is from definition `m`, whose body stands at the places from
`j` on, and the other places remain; equal rules are aligned -/
structure Exact [CSemi W] [DecidableEq W] (c : Undo W) (r : WRule W) : Prop where
  par : ∀ (u : Nat) t m, c.unf.out[u]? = some (t, some m) → c.par2def (c.unf.kept.length + u) = some m
  book : ∀ (u : Nat) t m s, c.unf.out[u]? = some (t, some m) → c.unf.old[m]? = some s → s.body ≠ [] ∧
    ∃ al, c.book (c.unf.kept.length + u) =
      some (al, List.range c.unf.j ++ (List.range (r.body.length - (c.unf.j + 1))).map (c.unf.j + s.body.length + ·)) ∧
      al.Perm ((List.range s.body.length).map fun k => (c.unf.j + k, k))
  align : ∀ (n m : Nat) R, c.rules[n]? = some R → c.unf.old[m]? = some R → c.align n = some m

/-! ### Lists -/

theorem minus_added {α : Type} (a b : List α) : Fold.minus (a ++ b) (Finset.Ico a.length (a ++ b).length) = a := by
  have key : ∀ n : Nat, ∀ b : List α, b.length = n → (((List.range' a.length n).reverse).foldl (fun l i => l.eraseIdx i) (a ++ b)) = a := by
    intro n
    induction n with
    | zero => intro b hb; rw [List.length_eq_zero_iff.1 hb]; simp
    | succ n ih =>
      intro b hb
      rw [List.range'_concat, List.reverse_append, List.foldl_append]
      simp only [List.reverse_cons, List.reverse_nil, List.nil_append, List.foldl_cons, List.foldl_nil]
      rw [List.eraseIdx_append_of_length_le (by simp)]
      refine ih _ ?_
      rw [List.length_eraseIdx]
      simp [hb]
  have hs : (Finset.Ico a.length (a ++ b).length).sort (· ≥ ·) = (List.range' a.length b.length).reverse := by
    refine List.Perm.eq_of_pairwise' (r := (· ≥ ·)) ?_ ?_ ?_
    · exact Finset.pairwise_sort _ _
    · rw [List.pairwise_reverse]
      exact (List.pairwise_le_range' : (List.range' a.length b.length).Pairwise (· ≤ ·))
    · refine (List.perm_ext_iff_of_nodup (Finset.sort_nodup _ _) (List.nodup_reverse.2 List.nodup_range')).2 fun n => ?_
      simp [List.mem_range'_1]
  rw [Fold.minus, hs]
  exact key _ b rfl

theorem rules_eq [CSemi W] [DecidableEq W] {c : Undo W} {r : WRule W} (h : c.unf.old[c.unf.i]? = some r) : c.rules = r :: c.unf.kept := by
  simp only [Undo.rules, h]

/-- **C82 (the rules of the undoing fold).**  Folding the added rules back into the unfolded rule gives the rules that the model uses, which are those of the old program in another
order. -/
theorem C82_undo_rules [CSemi W] [DecidableEq W] {c : Undo W} {r : WRule W} (h : c.unf.old[c.unf.i]? = some r) (hk : c.unf.kept = c.unf.old.erase r) (ins : List Tm) :
    (∀ S : Finset Nat, (∀ n, n ∈ S ↔ c.inS n = true) → (Fold.fold ⟨c.unf.new, ins⟩ r S).rules = c.rules) ∧ c.rules.Perm c.unf.old := by
  rw [rules_eq h]
  refine ⟨fun S hS => ?_, ?_⟩
  · have : S = Finset.Ico c.unf.kept.length (c.unf.kept ++ c.unf.out.map Prod.fst).length := by
      ext n
      rw [hS, Undo.inS, Cfg.new]
      simp
    simp only [Fold.fold, this, Cfg.new, minus_added]
  · rw [hk]
    exact (List.perm_cons_erase (List.mem_of_getElem? h)).symm

theorem allSome_append {α : Type*} {l m : List (Option α)} {a b : List α} (h1 : allSome l = some a) (h2 : allSome m = some b) :
    allSome (l ++ m) = some (a ++ b) := by
  rw [allSome_eq_some] at h1 h2 ⊢
  rw [h1, h2, List.map_append]

theorem at_shift (a l b : List (DUnfold.Tree W)) : at_ (a ++ l ++ b) ((List.range l.length).map (a.length + ·)) = some l := by
  rw [at_, allSome_eq_some]
  refine List.ext_getElem? fun i => ?_
  by_cases hi : i < l.length
  · simp [hi, List.getElem?_append_left, List.getElem?_append_right]
  · simp [hi]

theorem sort_fst {al : List (Nat × Nat)} {j n : Nat} (h : al.Perm ((List.range n).map fun k => (j + k, k))) :
    (al.map Prod.fst).insertionSort (· ≤ ·) = (List.range n).map (j + ·) := by
  refine List.Perm.eq_of_pairwise' (r := (· ≤ ·)) (List.pairwise_insertionSort _ _) ?_ ?_
  · rw [List.pairwise_map]
    exact List.pairwise_lt_range.imp fun h => by omega
  · refine (List.perm_insertionSort _ _).trans ((h.map Prod.fst).trans (.of_eq ?_))
    rw [List.map_map]; rfl

theorem filter_left {j n e : Nat} (he : 0 < e) : (List.range j ++ (List.range n).map (j + e + ·)).filter (· ≤ j) = List.range j := by
  rw [List.filter_append, List.filter_eq_self.2 (by simp; omega), List.filter_eq_nil_iff.2 (by simp; omega), List.append_nil]

theorem filter_right {j n e : Nat} (he : 0 < e) :
    ((List.range j ++ (List.range n).map (j + e + ·)).filter fun i => decide (i > j)) = (List.range n).map (j + e + ·) := by
  rw [List.filter_append, List.filter_eq_nil_iff.2 (by simp; omega), List.filter_eq_self.2 (by simp; omega), List.nil_append]

/-! ### The substitution -/

section
variable [CSemi W] [DecidableEq W]

theorem sep_none (L : Set Nat) : Subst.Sep L (fun _ => none) := by
  constructor <;> · intro n t h; cases h

theorem matchUp_ok (code : W → Const) {s : WRule W} {φ : Nat → Tm} {ks : List (DUnfold.Tree W)} {L : Set Nat}
    (hL : ∀ l ∈ s.body, ∀ n ∈ vars (Measure.litTm code l), n ∈ L) : ∀ (al : List (Nat × Nat)) (h : Heap), Subst.Sep L h → Subst.Ext h φ →
    (∀ p ∈ al, ∃ l d, s.body[p.2]? = some l ∧ ks[p.1]? = some d ∧ (Measure.litTm code l).sub φ = treeTm code d ∧ vars (treeTm code d) = ∅) →
    ∃ h', Evt (fun f => matchUp f code s ks al h = some h') ∧ Subst.Sep L h' ∧ Subst.Ext h' φ ∧ (∀ n, h n ≠ none → h' n ≠ none) ∧
      ∀ p ∈ al, ∀ l, s.body[p.2]? = some l → ∀ n ∈ vars (Measure.litTm code l), h' n ≠ none
  | [], h, hs, he, _ => ⟨h, .of_all fun f => rfl, hs, he, fun _ h => h, by simp⟩
  | (i, k) :: al, h, hs, he, hp => by
    obtain ⟨l, d, e1, e2, e3, e4⟩ := hp (i, k) (by simp)
    obtain ⟨r, c1, c2⟩ := Subst.cover_total (L := L) (Measure.litTm code l) (hL l (List.mem_of_getElem? e1)) h (treeTm code d) hs (by simp [e4])
    cases r with
    | none => exact absurd e3 (c1.fail rfl φ he)
    | some h1 =>
      obtain ⟨d1, d2, d3, d4⟩ := c1.ok h1 rfl
      obtain ⟨h2, f1, f2, f3, f4, f5⟩ := matchUp_ok code hL al h1 d1 ((d4 φ).2 ⟨he, e3⟩) fun p hm => hp p (List.mem_cons_of_mem _ hm)
      refine ⟨h2, (c2.and f1).mono fun f hf => ?_, f2, f3, fun n hn => f4 n (d3 n hn), ?_⟩
      · simp only [matchUp, e1, e2, hf.1, hf.2]
      · intro p hm l' hl' n hn
        rcases List.mem_cons.1 hm with rfl | hm
        · obtain rfl := Option.some.inj (e1.symm.trans hl')
          exact f4 n (d2 n hn)
        · exact f5 p hm l' hl' n hn

theorem call_sub {L : Set Nat} {h : Heap} (hs : Subst.Sep L h) {φ : Nat → Tm} (he : Subst.Ext h φ) (t : Tm) (hb : ∀ n ∈ vars t, h n ≠ none) :
    Evt fun f => Subst.callF h f t = some (t.sub φ) := by
  have hgood : Heap.Good h := by
    intro n
    cases hn : h n with
    | none => exact ⟨1, .var n, by simp [Heap.derefF, hn]⟩
    | some t =>
      obtain ⟨g, hg⟩ := Subst.deref_id (s := h) t (fun x hx => by
        by_contra hc
        obtain ⟨u, hu⟩ := Option.ne_none_iff_exists'.1 hc
        exact hs.rng n t hn x hx (hs.dom x u hu))
      exact ⟨g + 1, t, by simp [Heap.derefF, hn, hg]⟩
  refine (hgood.evt_deref t).mono fun f e => ?_
  have e' : Subst.callF h f t = _ := e
  have := Propagate.call_eq hs e'
  rw [e', this]
  congr 1
  refine sub_congr fun n hn => ?_
  obtain ⟨u, hu⟩ := Option.ne_none_iff_exists'.1 (hb n hn)
  rw [he n u hu, Propagate.toSub, hu]; rfl

theorem like_tm (code : W → Const) {d d' : DUnfold.Tree W} (h : Like d d') : treeTm code d = treeTm code d' := by
  cases h <;> rfl

theorem gr_tm (code : W → Const) {d : DUnfold.Tree W} (h : Gr d) : vars (treeTm code d) = ∅ := by
  cases h with
  | const k => simp [treeTm]
  | bi t h => exact h
  | node n x ks h _ => exact h

theorem fits_tm (code : W → Const) {ops : Ops} {l : Lit W} {d : DUnfold.Tree W} (h : Fits ops l d) : Measure.litTm code l = treeTm code d := by
  cases h <;> rfl

theorem litTm_sub (code : W → Const) (φ : Nat → Tm) (l : Lit W) : Measure.litTm code (subLit φ l) = (Measure.litTm code l).sub φ := by
  cases l with
  | val k => simp [Measure.litTm, subLit]
  | sub t => rfl

theorem litTm_vars (code : W → Const) (l : Lit W) : vars (Measure.litTm code l) = litVars l := by
  cases l with
  | val k => simp [Measure.litTm, litVars]
  | sub t => rfl

/-! ### Round trip -/

/-- `F` undoes the mapping, up to the numbers of the rules -/
def Back (code : W → Const) (c : Undo W) (d : DUnfold.Tree W) : Prop :=
  ∀ d', tr c.unf d = some d' → ∃ e, Evt (fun f => F code c f d' = some e) ∧ renum c.align e = some d

theorem back_list {code : W → Const} {c : Undo W} : ∀ {ks ks' : List (DUnfold.Tree W)}, (∀ d ∈ ks, Back code c d) → trL c.unf ks = some ks' →
    ∃ es, Evt (fun f => allSome (ks'.map (F code c f)) = some es) ∧ renumL c.align es = some ks ∧
      Evt (fun f => allSome (ks'.map fun d => (F code c f d).bind (renum c.align)) = some ks)
  | [], ks', _, h => by
    simp only [trL, Option.some.injEq] at h
    subst h
    exact ⟨[], .of_all fun f => rfl, rfl, .of_all fun f => rfl⟩
  | d :: ks, ks', hb, h => by
    simp only [trL] at h
    split at h
    · rename_i d' ks1 e1 e2
      obtain rfl := Option.some.inj h
      obtain ⟨e, a1, a2⟩ := hb d (by simp) d' e1
      obtain ⟨es, b1, b2, b3⟩ := back_list (fun d hd => hb d (List.mem_cons_of_mem _ hd)) e2
      refine ⟨e :: es, (a1.and b1).mono fun f hf => ?_, ?_, (a1.and b3).mono fun f hf => ?_⟩
      · simp only [List.map_cons, hf.1, allSome, hf.2, Option.map_some]
      · simp only [renumL, a2, b2]
      · simp only [List.map_cons, hf.1, Option.bind_some, a2, allSome, hf.2, Option.map_some]
    · cases h

theorem trL_split {c : Cfg W} {a b l' : List (DUnfold.Tree W)} (h : trL c (a ++ b) = some l') :
    ∃ a' b', l' = a' ++ b' ∧ trL c a = some a' ∧ trL c b = some b' := by
  rw [DUnfold.trL_append] at h
  split at h
  · exact ⟨_, _, (Option.some.inj h).symm, ‹_›, ‹_›⟩
  · cases h

theorem trL_len {c : Cfg W} : ∀ {a a' : List (DUnfold.Tree W)}, trL c a = some a' → a'.length = a.length
  | [], a', h => by simp only [trL, Option.some.injEq] at h; subst h; rfl
  | d :: a, a', h => by
    simp only [trL] at h
    split at h
    · obtain rfl := Option.some.inj h
      simp [trL_len ‹_›]
    · cases h

theorem trL_get {c : Cfg W} : ∀ {a a' : List (DUnfold.Tree W)}, trL c a = some a' → ∀ (i : Nat) d, a[i]? = some d →
    ∃ d', a'[i]? = some d' ∧ tr c d = some d'
  | [], a', h, i, d, hd => by simp at hd
  | d :: a, a', h, i, e, hd => by
    simp only [trL] at h
    split at h
    · rename_i d' as' e1 e2
      obtain rfl := Option.some.inj h
      cases i with
      | zero => simp at hd; subst hd; exact ⟨d', rfl, e1⟩
      | succ i => simpa using trL_get e2 i e (by simpa using hd)
    · cases h

theorem back (code : W → Const) {ops : Ops} {c : Undo W} {r : WRule W} {q : Tm} (h : Step ops c.unf r q) (hx : Exact c r) :
    ∀ (N : Nat) (d : DUnfold.Tree W), d.size ≤ N → Valid ops c.unf.old d → Gr d → Back code c d
  | _, .const k, _, _, _ => fun d' e => by
    simp only [tr, Option.some.injEq] at e; subst e
    exact ⟨.const k, .of_succ fun f => rfl, rfl⟩
  | _, .bi t, _, _, _ => fun d' e => by
    simp only [tr, Option.some.injEq] at e; subst e
    exact ⟨.bi t, .of_succ fun f => rfl, rfl⟩
  | 0, .node _ _ _, hN, _, _ => by simp [DUnfold.Tree.size] at hN
  | N + 1, .node n x ks, hN, hv, hg => by
    intro d' ht
    have hrules := rules_eq h.rule
    simp only [DUnfold.Tree.size] at hN
    have ih : ∀ d ∈ ks, Back code c d := fun d hd => by
      have hs := DUnfold.size_mem hd
      cases hv with | node _ _ _ hk => cases hg with | node _ _ _ _ hk' => exact back code h hx N d (by omega) (hk d hd) (hk' d hd)
    simp only [tr] at ht
    by_cases hn : n = c.unf.i
    · subst hn
      obtain ⟨θ, φ, m, s, a, y, l, b, rfl, ha, -, -, hm, hcov, hy, -, hfit, -, hva, hvl, hvb⟩ := h.top hv
      rw [if_pos rfl, ← ha, DUnfold.trAt_eq] at ht
      cases htr : trL c.unf (a ++ l ++ b) with
      | none => simp only [htr, Option.map_none] at ht; cases ht
      | some ks' =>
      simp only [htr, Option.map_some] at ht
      obtain ⟨I, hI, rfl⟩ := Option.map_eq_some_iff.1 ht
      obtain ⟨u, t, rfl, hu⟩ := h.def2new_iff.1 hI
      obtain ⟨al', b', rfl, h1, htb⟩ := trL_split htr
      obtain ⟨a', l', rfl, hta, htl⟩ := trL_split h1
      obtain ⟨hne, al, hbook, hal⟩ := hx.book u t m s hu hm
      have hpar := hx.par u t m hu
      have hlen : l'.length = s.body.length := by rw [trL_len htl, ← hfit.length_eq, List.length_map]
      have hpos : 0 < s.body.length := List.length_pos_iff.2 hne
      have hbl : b'.length = r.body.length - (c.unf.j + 1) := by
        rw [trL_len htb]
        have := hv
        cases this with
        | node g1 g2 g3 g4 =>
        obtain rfl := Option.some.inj (g1.symm.trans h.rule)
        obtain ⟨θ', -, rfl⟩ := g2
        have := g3.length_eq
        simp only [List.length_map, List.length_append, List.length_cons] at this
        omega
      have hal' : a'.length = c.unf.j := by rw [trL_len hta, ha]
      -- the places
      have e1 : at_ (a' ++ l' ++ b') (List.range c.unf.j) = some a' := by
        have := at_shift ([] : List (DUnfold.Tree W)) a' (l' ++ b')
        simpa [hal'] using this
      have e2 : at_ (a' ++ l' ++ b') ((List.range s.body.length).map (c.unf.j + ·)) = some l' := by
        have := at_shift a' l' b'
        rwa [hal', hlen] at this
      have e3 : at_ (a' ++ l' ++ b') ((List.range (r.body.length - (c.unf.j + 1))).map (c.unf.j + s.body.length + ·)) = some b' := by
        have := at_shift (a' ++ l') b' []
        rw [List.append_nil, List.length_append, hal', hlen, hbl] at this
        exact this
      -- the kids
      have hsub : DUnfold.Tree.node m y l ∈ a ++ .node m y l :: b := by simp
      have ihl : ∀ d ∈ l, Back code c d := by
        intro d hd
        have hs := DUnfold.size_mem hsub
        have hs' := DUnfold.size_mem hd
        simp only [DUnfold.Tree.size] at hs
        have hgl : Gr d := by
          cases hg with | node _ _ _ _ hk => cases hk _ hsub with | node _ _ _ _ hk => exact hk d hd
        exact back code h hx N d (by omega) (hvl d hd) hgl
      have hgl : ∀ d ∈ l, Gr d := fun d hd => by
        cases hg with | node _ _ _ _ hk => cases hk _ hsub with | node _ _ _ _ hk => exact hk d hd
      obtain ⟨el, a1, a2, a3⟩ := back_list ihl htl
      have hvm : Valid ops c.unf.old (.node m y l) := by cases hv with | node _ _ _ hk => exact hk _ hsub
      obtain ⟨m', b1, -, -, -⟩ := h.forward _ _ (le_refl _) hvm
      have htall : trL c.unf (a ++ .node m y l :: b) = some (a' ++ m' :: b') := by
        rw [DUnfold.trL_append, hta]
        simp only [trL, b1, htb]
      obtain ⟨es, f1, f2, -⟩ := back_list ih htall
      -- the substitution
      obtain ⟨θ', g1, g2, g3, -, g5⟩ := matchUp_ok code (s := s) (φ := φ) (ks := a' ++ l' ++ b') (L := fun n => n ∈ bodyVars s.body)
        (fun l hl n hn => mem_bodyVars.2 ⟨l, hl, litTm_vars code l ▸ hn⟩) al (fun _ => none) (sep_none _) (fun n t e => by cases e) (by
          intro p hp
          have := hal.mem_iff.1 hp
          rw [List.mem_map] at this
          obtain ⟨k, hk, rfl⟩ := this
          rw [List.mem_range] at hk
          have hk1 : k < l.length := by rw [← trL_len htl, hlen]; exact hk
          obtain ⟨d', hd1, hd2⟩ := trL_get htl k l[k] (List.getElem?_eq_getElem hk1)
          have hd3 : (a' ++ l' ++ b')[c.unf.j + k]? = some d' := by
            rw [List.append_assoc, List.getElem?_append_right (by omega), List.getElem?_append_left (by omega), hal',
              show c.unf.j + k - c.unf.j = k by omega, hd1]
          obtain ⟨d2, k1, -, k3, -⟩ := h.forward _ _ (le_refl _) (hvl l[k] (List.getElem_mem hk1))
          obtain rfl := Option.some.inj (hd2.symm.trans k1)
          refine ⟨s.body[k], d', List.getElem?_eq_getElem hk, hd3, ?_, ?_⟩
          · rw [← litTm_sub, ← like_tm code k3]
            have := (List.forall₂_iff_get.1 hfit).2 k (by simpa using hk) hk1
            simp only [List.get_eq_getElem, List.getElem_map] at this
            exact fits_tm code this
          · rw [← like_tm code k3]
            exact gr_tm code (hgl _ (List.getElem_mem hk1)))
      have hcall := call_sub g2 g3 s.head fun n hn => by
        obtain ⟨l0, hl0, hn0⟩ := mem_bodyVars.1 (hcov hn)
        obtain ⟨k, hk, rfl⟩ := List.mem_iff_getElem.1 hl0
        refine g5 (c.unf.j + k, k) (hal.mem_iff.2 (List.mem_map.2 ⟨k, List.mem_range.2 hk, rfl⟩)) _ (List.getElem?_eq_getElem hk) n ?_
        rw [litTm_vars]; exact hn0
      refine ⟨.node 0 x es, .succ ?_, ?_⟩
      · have hS : c.inS (c.unf.kept.length + u) = true := by
          have := (List.getElem?_eq_some_iff.1 hu).1
          simp only [Undo.inS, Cfg.new, List.length_append, List.length_map, decide_eq_true_eq]
          omega
        refine ((g1.and hcall).and (a3.and f1)).mono fun f hf => ?_
        rw [F, if_neg (by simp [hS])]
        simp only [hpar, hbook, hm, filter_left hpos, filter_right hpos, sort_fst hal, e1, e2, e3, hf.1.1, hf.1.2, hf.2.1, hy, b1, hf.2.2, Option.map_some]
      · have h0 : c.align 0 = some c.unf.i := hx.align 0 _ r (by rw [hrules]; rfl) h.rule
        simp only [renum, h0, f2]
    · rw [if_neg hn] at ht
      cases hR : c.unf.old[n]? with
      | none => simp [hR] at ht
      | some R =>
      cases hk : trL c.unf ks with
      | none => simp [hR, hk] at ht
      | some ks' =>
      simp only [hR, hk] at ht
      obtain ⟨I, hI, rfl⟩ := Option.map_eq_some_iff.1 ht
      rw [h.idx_iff hR hn] at hI
      obtain ⟨es, a1, a2, -⟩ := back_list ih hk
      have hIl := (List.getElem?_eq_some_iff.1 hI).1
      have hmem : R ∈ c.rules := by rw [hrules]; exact List.mem_cons_of_mem _ (List.mem_of_getElem? hI)
      obtain ⟨J, hJ⟩ := Option.ne_none_iff_exists'.1 (fun e => absurd hmem (List.idxOf?_eq_none_iff.1 e) : c.rules.idxOf? R ≠ none)
      have hJ' : c.rules[J]? = some R := by
        obtain ⟨h1, h2, -⟩ := List.idxOf?_eq_some_iff.1 hJ
        rw [List.getElem?_eq_getElem h1, h2]
      refine ⟨.node J x es, .succ (a1.mono fun f hf => ?_), ?_⟩
      · rw [F, if_pos (by simp only [Undo.inS, Bool.not_eq_true', decide_eq_false_iff_not]; omega)]
        have : c.unf.new[I]? = some R := by rw [Cfg.new, List.getElem?_append_left hIl, hI]
        simp only [this, hf, hJ, Option.map_some]
      · simp only [renum, hx.align J n R hJ' hR, a2]

/-- **C82 (round trip).**  Mapping a derivation forth and back gives the derivation, if the records are exact. -/
theorem C82_round_trip (code : W → Const) {ops : Ops} {c : Undo W} {r : WRule W} {q : Tm} (h : Step ops c.unf r q) (hx : Exact c r)
    {d d' : DUnfold.Tree W} (hv : Valid ops c.unf.old d) (hg : Gr d) (ht : tr c.unf d = some d') : Evt fun f => U code c f d' = some d := by
  obtain ⟨e, h1, h2⟩ := back code h hx _ d (le_refl _) hv hg d' ht
  exact h1.mono fun f hf => by rw [U, hf, Option.bind_some, h2]

theorem vars_fits {ops : Ops} {φ : Nat → Tm} {b : List (Lit W)} {l : List (DUnfold.Tree W)} (code : W → Const)
    (h : List.Forall₂ (Fits ops) (b.map (subLit φ)) l) (hg : ∀ d ∈ l, vars (treeTm code d) = ∅) : ∀ n ∈ bodyVars b, vars (φ n) = ∅ := by
  intro n hn
  obtain ⟨l0, hl0, hn0⟩ := mem_bodyVars.1 hn
  obtain ⟨k, hk, rfl⟩ := List.mem_iff_getElem.1 hl0
  have hk1 : k < l.length := by rw [← h.length_eq, List.length_map]; exact hk
  have := (List.forall₂_iff_get.1 h).2 k (by simpa using hk) hk1
  simp only [List.get_eq_getElem, List.getElem_map] at this
  have e := fits_tm code this
  rw [litTm_sub] at e
  have hz := hg _ (List.getElem_mem hk1)
  rw [← e] at hz
  rw [← litTm_vars code] at hn0
  refine Finset.eq_empty_of_forall_notMem fun x hx => ?_
  have := Reorder.vars_sub_of hx _ hn0
  rw [hz] at this
  simp at this

/-- a derivation whose image is ground is ground -/
theorem gr_back (code : W → Const) {ops : Ops} {c : Cfg W} {r : WRule W} {q : Tm} (h : Step ops c r q) :
    ∀ (N : Nat) (d : DUnfold.Tree W), d.size ≤ N → Valid ops c.old d → ∀ d', tr c d = some d' → Gr d' → Gr d
  | _, .const k, _, _, _, _, _ => .const k
  | _, .bi t, _, _, d', e, hg => by simp only [tr, Option.some.injEq] at e; subst e; exact hg
  | 0, .node _ _ _, hN, _, _, _, _ => by simp [DUnfold.Tree.size] at hN
  | N + 1, .node n x ks, hN, hv, d', ht, hg => by
    simp only [DUnfold.Tree.size] at hN
    have hlist : ∀ (l l' : List (DUnfold.Tree W)), trL c l = some l' → (∀ d ∈ l, d.size ≤ N) → (∀ d ∈ l, Valid ops c.old d) → (∀ d ∈ l', Gr d) →
        ∀ d ∈ l, Gr d := by
      intro l l' e h1 h2 h3 d hd
      obtain ⟨k, hk, rfl⟩ := List.mem_iff_getElem.1 hd
      obtain ⟨d', e1, e2⟩ := trL_get e k _ (List.getElem?_eq_getElem hk)
      exact gr_back code h N _ (h1 _ hd) (h2 _ hd) d' e2 (h3 d' (List.mem_of_getElem? e1))
    simp only [tr] at ht
    by_cases hn : n = c.i
    · subst hn
      obtain ⟨θ, φ, m, s, a, y, l, b, rfl, ha, -, -, hm, hcov, hy, -, hfit, -, hva, hvl, hvb⟩ := h.top hv
      rw [if_pos rfl, ← ha, DUnfold.trAt_eq] at ht
      cases htr : trL c (a ++ l ++ b) with
      | none => simp only [htr, Option.map_none] at ht; cases ht
      | some ks' =>
      simp only [htr, Option.map_some] at ht
      obtain ⟨I, -, rfl⟩ := Option.map_eq_some_iff.1 ht
      cases hg with
      | node _ _ _ hx hk =>
      have hsz : ∀ d ∈ a ++ l ++ b, d.size ≤ N := by
        intro d hd
        simp only [DUnfold.sizeL_append, DUnfold.sizeL, DUnfold.Tree.size] at hN
        simp only [List.mem_append] at hd
        rcases hd with (hd | hd) | hd <;> have := DUnfold.size_mem hd <;> omega
      have hall := hlist _ _ htr hsz (by
        intro d hd
        simp only [List.mem_append] at hd
        rcases hd with (hd | hd) | hd
        · exact hva d hd
        · exact hvl d hd
        · exact hvb d hd) hk
      have hl : ∀ d ∈ l, Gr d := fun d hd => hall d (by simp [hd])
      refine .node _ _ _ hx fun d hd => ?_
      rw [List.mem_append, List.mem_cons] at hd
      rcases hd with hd | rfl | hd
      · exact hall d (by simp [hd])
      · refine .node _ _ _ ?_ hl
        rw [← hy]
        refine Finset.eq_empty_of_forall_notMem fun v hv => ?_
        obtain ⟨w, hw, hv⟩ := Propagate.mem_vars_sub hv
        rw [vars_fits code hfit (fun d hd => gr_tm code (hl d hd)) w (hcov hw)] at hv
        simp at hv
      · exact hall d (by simp [hd])
    · rw [if_neg hn] at ht
      cases hR : c.old[n]? with
      | none => simp [hR] at ht
      | some R =>
      cases hk : trL c ks with
      | none => simp [hR, hk] at ht
      | some ks' =>
      simp only [hR, hk] at ht
      obtain ⟨I, -, rfl⟩ := Option.map_eq_some_iff.1 ht
      cases hg with
      | node _ _ _ hx hg =>
      refine .node _ _ _ hx (hlist _ _ hk (fun d hd => ?_) ?_ hg)
      · have := DUnfold.size_mem hd; omega
      · cases hv with | node _ _ _ hk => exact hk

/-- **C82 (inverse).**  Mapping a derivation of the new program back ends, gives a derivation of the old program, and mapping that forth gives the derivation again. -/
theorem C82_inverse (code : W → Const) {ops : Ops} {c : Undo W} {r : WRule W} {q : Tm} (h : Step ops c.unf r q) (hx : Exact c r)
    {d' : DUnfold.Tree W} (hv : Valid ops c.unf.new d') (hg : Gr d') :
    ∃ d, Evt (fun f => U code c f d' = some d) ∧ Valid ops c.unf.old d ∧ Gr d ∧ tr c.unf d = some d' := by
  obtain ⟨d, h1, h2, -⟩ := h.backward _ d' (le_refl _) hv
  have hgd := gr_back code h _ d (le_refl _) h1 d' h2 hg
  exact ⟨d, C82_round_trip code h hx h1 hgd h2, h1, hgd, h2⟩

/-- **C82 (from the program).**  The same for the unfolding of a program as in C71. -/
theorem C82_unfold (code : W → Const) {ops : Ops} {k : Nat} {p : Unfold.Prog W} {i j : Nat} {r : WRule W} {q : Tm} (h : DUnfold.Ok ops k p i j r q) (inf : W) :
    ∃ c new st, Evt (fun f => DUnfold.cfg f ops inf k p i j = some c) ∧ Evt (fun f => Unfold.unfold f ops inf k p p i j = some (new, st, .done)) ∧
      ∀ u : Undo W, u.unf = c → Exact u r →
        (∀ d d', Valid ops p.rules d → Gr d → tr c d = some d' → Evt fun f => U code u f d' = some d) ∧
        ∀ d', Valid ops new d' → Gr d' → ∃ d, Evt (fun f => U code u f d' = some d) ∧ Valid ops p.rules d ∧ tr c d = some d' := by
  obtain ⟨c, h1, ⟨k', h2⟩, h3, h4⟩ := h.step inf
  refine ⟨c, c.new, _, h1, h2, ?_⟩
  rintro u rfl hx
  rw [← h3]
  refine ⟨fun d d' a1 a2 a3 => C82_round_trip code h4 hx a1 a2 a3, fun d' a1 a2 => ?_⟩
  obtain ⟨d, b1, b2, -, b4⟩ := C82_inverse code h4 hx a1 a2
  exact ⟨d, b1, b2, b4⟩

/-! ### The records -/

/-- the body of `D` has an instance among the body of `P` at these places -/
def At (code : W → Const) (P D : WRule W) (al : List Nat) : Prop :=
  al.Nodup ∧ ∃ τ, List.Forall₂ (fun l j => ∃ l', P.body[j]? = some l' ∧ Measure.litTm code l' = (Measure.litTm code l).sub τ) D.body al

/-- **C82 (records).**  If the body of the definition has an instance in the rule at the places from `j` on only, the recorded places are these. -/
theorem C82_records {f : Nat} {ord : List Nat → List Nat} (hord : ∀ l, (ord l).Perm l) {code : W → Const}
    {pick : List Reorder.Folded → Option Reorder.Folded} (hp : ∀ l t, pick l = some t → t ∈ l) {P D : WRule W}
    (hd : Disjoint (bodyVars D.body) (bodyVars P.body)) {j e : Nat} (hlen : P.body.length = j + D.body.length + e)
    (hu : ∀ al, At code P D al → al = (List.range D.body.length).map (j + ·)) {al : List (Nat × Nat)} {rem : List Nat}
    (h : bookOf f ord code pick P D = some (al, rem)) :
    al.Perm ((List.range D.body.length).map fun k => (j + k, k)) ∧ rem = List.range j ++ (List.range e).map (j + D.body.length + ·) := by
  unfold bookOf at h
  split at h
  · cases h
  · rename_i l hl
    obtain ⟨t, ht, e1⟩ := Option.map_eq_some_iff.1 h
    obtain ⟨cs, c, hcs, hc, h1⟩ := Reorder.foldsBy_mem hl (hp l t ht)
    obtain ⟨e2, e3⟩ := Reorder.foldOne_keeps h1
    simp only [Prod.mk.injEq] at e1
    obtain ⟨rfl, rfl⟩ := e1
    have hvL : ∀ b : List (Lit W), varsL (b.map (Measure.litTm code)) = bodyVars b := by
      intro b
      ext n
      rw [mem_varsL, mem_bodyVars]
      constructor
      · rintro ⟨t, ht, hn⟩
        obtain ⟨l, hl, rfl⟩ := List.mem_map.1 ht
        exact ⟨l, hl, litTm_vars code l ▸ hn⟩
      · rintro ⟨l, hl, hn⟩
        exact ⟨_, List.mem_map_of_mem hl, (litTm_vars code l).symm ▸ hn⟩
    have hd' : Disjoint (varsL (ruleTm code D).body) (varsL (ruleTm code P).body) := by
      simp only [ruleTm, hvL]; exact hd
    obtain ⟨-, hex⟩ := Product.C15_exact hord hd' hcs
    obtain ⟨r1, r2, r3, r4, -⟩ := Product.C15_result hord hd' hcs hc
    have hal : c.al = (List.range D.body.length).map (j + ·) := by
      obtain ⟨a1, a2, τ, a3⟩ := (hex c.al).1 (List.mem_map_of_mem hc)
      refine hu _ ⟨a1, τ, ?_⟩
      simp only [ruleTm, List.forall₂_map_left_iff, List.getElem?_map, Option.map_eq_some_iff] at a3
      exact a3
    constructor
    · rw [e2]
      have hn1 : c.A.Nodup := List.Nodup.of_map _ r2
      refine (List.perm_ext_iff_of_nodup hn1 (List.nodup_range.map fun a b h => by simpa using h)).2 fun ⟨a, b⟩ => ?_
      rw [r1, hal]
      by_cases hb : b < D.body.length
      · simp [hb, eq_comm]
      · simp [hb]
    · rw [e3]
      refine List.Perm.eq_of_pairwise' (r := (· < ·)) r3 ?_ ?_
      · rw [List.pairwise_append, List.pairwise_map]
        refine ⟨List.pairwise_lt_range, List.pairwise_lt_range.imp fun h => by omega, ?_⟩
        intro a ha b hb
        simp only [List.mem_range, List.mem_map] at ha hb
        omega
      · refine (List.perm_ext_iff_of_nodup (r3.imp fun h => ne_of_lt h) ?_).2 fun a => ?_
        · refine List.Nodup.append List.nodup_range (List.nodup_range.map fun a b h => by simpa using h) ?_
          intro a ha hb
          simp only [List.mem_range, List.mem_map] at ha hb
          omega
        · rw [r4, hal]
          simp only [ruleTm, List.length_map, List.mem_map, List.mem_range, List.mem_append, hlen]
          constructor
          · rintro ⟨h1, h2⟩
            by_cases hj : a < j
            · exact .inl hj
            · refine .inr ⟨a - (j + D.body.length), ?_, ?_⟩
              · by_contra hc
                exact h2 ⟨a - j, by omega, by omega⟩
              · by_contra hc
                exact h2 ⟨a - j, by omega, by omega⟩
          · rintro (h | ⟨k, hk, rfl⟩)
            · exact ⟨by omega, by rintro ⟨k, hk, rfl⟩; omega⟩
            · exact ⟨by omega, by rintro ⟨k', hk', e⟩; omega⟩

end

/-! ### Examples -/

section Example
open Unfold DUnfold

def natCode (n : Nat) : Const := .int n

def tvC : TV → Const
  | .t => .str "true"
  | _ => .str "false"

/-- the records for the one rule that an unfolding of rule 0 adds at place 3, from definition 1 -/
def undo1 {W : Type} [DecidableEq W] (code : W → Const) (c : Cfg W) : Undo W where
  unf := c
  par2def n := if n = 3 then some 1 else none
  book n := if n = 3 then match c.new[3]?, c.old[1]? with
    | some P, some D => bookOf 20 id code List.getLast? P D
    | _, _ => none
    else none
  align n := if n < 4 then some n else none

/-- `goal(X) += b(X) * x(X).  x(X) += a(X) * false.  a(1) += true.  b(1) += true.` -/
def goodD : Prog TV := ⟨[⟨at' "goal" [.var 0], [.sub (at' "b" [.var 0]), .sub (at' "x" [.var 0])]⟩,
  ⟨at' "x" [.var 1], [.sub (at' "a" [.var 1]), .val .f]⟩, ⟨at' "a" [.con (.int 1)], [.val .t]⟩, ⟨at' "b" [.con (.int 1)], [.val .t]⟩], []⟩

def goodTree : DUnfold.Tree TV := .node 0 (at' "goal" [.con (.int 1)]) [.node 3 (at' "b" [.con (.int 1)]) [.const .t],
  .node 1 (at' "x" [.con (.int 1)]) [.node 2 (at' "a" [.con (.int 1)]) [.const .t], .const .f]]

/-- forth and back -/
example : ((cfg 20 ltOps TV.t 8 goodD 0 1).bind fun c => (tr c goodTree).bind fun d => U tvC (undo1 tvC c) 30 d) = some goodTree := by rfl

/-- `goal += a * x.  x += a.  a += 1.  a += 2.` -/
def swapD : Prog Nat := ⟨[⟨at' "goal" [], [.sub (at' "a" []), .sub (at' "x" [])]⟩,
  ⟨at' "x" [], [.sub (at' "a" [])]⟩, ⟨at' "a" [], [.val 1]⟩, ⟨at' "a" [], [.val 2]⟩], []⟩

/-- `goal` by the first rule for `a` times `x` by the second one, or the other way around -/
def swapTree (m n u v : Nat) : DUnfold.Tree Nat := .node 0 (at' "goal" []) [.node m (at' "a" []) [.const u],
  .node 1 (at' "x" []) [.node n (at' "a" []) [.const v]]]

theorem not_bi_at (f : String) (hf : f ≠ "<") (hf' : f ≠ "=") (as : List Tm) : ¬ IsBi ltOps (at' f as) := by
  rintro ⟨c, x, y, e, h⟩
  simp only [Tm.app.injEq, List.cons.injEq, Tm.con.injEq] at e
  obtain ⟨rfl, -⟩ := e
  rcases h with h | h
  · exact h (by simp [ltOps, hf])
  · exact hf' (by simpa using h)

theorem swapTree_valid {m n u v : Nat} (hm : swapD.rules[m]? = some ⟨at' "a" [], [.val u]⟩) (hn : swapD.rules[n]? = some ⟨at' "a" [], [.val v]⟩) :
    Valid ltOps swapD.rules (swapTree m n u v) ∧ Gr (swapTree m n u v) := by
  have h1 := not_bi_at "a" (by decide) (by decide) []
  have h2 := not_bi_at "x" (by decide) (by decide) []
  constructor
  · refine .node (r := swapD.rules[0]) rfl ⟨.var, rfl, rfl⟩ (.cons (.node _ _ _ h1) (.cons (.node _ _ _ h2) .nil)) ?_
    intro d hd
    simp only [List.mem_cons, List.not_mem_nil, or_false] at hd
    rcases hd with rfl | rfl
    · refine .node hm ⟨.var, rfl, rfl⟩ (.cons (.val _) .nil) ?_
      intro d hd; simp at hd; subst hd; exact .const _
    · refine .node (r := swapD.rules[1]) rfl ⟨.var, rfl, rfl⟩ (.cons (.node _ _ _ h1) .nil) ?_
      intro d hd; simp at hd; subst hd
      refine .node hn ⟨.var, rfl, rfl⟩ (.cons (.val _) .nil) ?_
      intro d hd; simp at hd; subst hd; exact .const _
  · refine .node _ _ _ (by simp) fun d hd => ?_
    simp only [List.mem_cons, List.not_mem_nil, or_false] at hd
    rcases hd with rfl | rfl
    · refine .node _ _ _ (by simp) fun d hd => ?_
      simp at hd; subst hd; exact .const _
    · refine .node _ _ _ (by simp) fun d hd => ?_
      simp at hd; subst hd
      refine .node _ _ _ (by simp) fun d hd => ?_
      simp at hd; subst hd; exact .const _

/-- **C82 (children are exchanged).**  If the body of the definition can be found in the unfolded rule at other places too, the first of them is recorded, and mapping a
derivation forth and back gives another derivation, with the factors in another order. -/
theorem C82_swapped : ∃ (c : Cfg Nat) (d d' e : DUnfold.Tree Nat), cfg 20 ltOps (7 : Nat) 8 swapD 0 1 = some c ∧ Valid ltOps swapD.rules d ∧ Gr d ∧
    tr c d = some d' ∧ U natCode (undo1 natCode c) 30 d' = some e ∧ Valid ltOps swapD.rules e ∧ e ≠ d ∧ d.leaves = [1, 2] ∧ e.leaves = [2, 1] := by
  refine ⟨_, swapTree 2 3 1 2, _, swapTree 3 2 2 1, rfl, (swapTree_valid rfl rfl).1, (swapTree_valid rfl rfl).2, rfl, rfl, (swapTree_valid rfl rfl).1, ?_, rfl, rfl⟩
  simp [swapTree]

theorem goodD_ok : DUnfold.Ok ltOps 8 goodD 0 1 ⟨at' "goal" [.var 0], [.sub (at' "b" [.var 0]), .sub (at' "x" [.var 0])]⟩ (at' "x" [.var 0]) where
  rule := rfl
  goal := rfl
  below := by intro n hn; simp [rvars, bodyVars, litVars] at hn; omega
  notInput := by simp [goodD]
  kind := ⟨_, _, rfl, by decide, by decide⟩
  user := ⟨_, _, rfl, by decide, by decide⟩
  heads := by
    intro s hs
    simp [goodD] at hs
    rcases hs with rfl | rfl | rfl | rfl <;> exact ⟨_, _, rfl, by decide, by decide⟩
  covered := by
    intro s hs _
    simp [goodD] at hs
    rcases hs with rfl | rfl | rfl | rfl <;> simp [Covered, bodyVars, litVars, Finset.subset_iff]
  distinct := by decide +kernel

/-- the unfolding of `x(X)` in the first rule -/
def goodC : Cfg TV := ⟨0, 1, goodD.rules, goodD.rules.drop 1,
  [(⟨at' "goal" [.var 9], [.sub (at' "b" [.var 9]), .sub (at' "a" [.var 9]), .val .f]⟩, some 1)]⟩

theorem goodC_eq (f : Nat) : cfg (f + 20) ltOps TV.t 8 goodD 0 1 = some goodC := by rfl

/-- the records that are found are exact -/
theorem goodC_exact : Exact (undo1 tvC goodC) ⟨at' "goal" [.var 0], [.sub (at' "b" [.var 0]), .sub (at' "x" [.var 0])]⟩ where
  par := by
    intro u t m h
    rcases u with _ | u
    · simp [goodC, undo1] at h
      obtain ⟨-, rfl⟩ := h
      rfl
    · simp [undo1, goodC] at h
  book := by
    intro u t m s h hs
    rcases u with _ | u
    · simp only [undo1, goodC, List.length_cons, List.getElem?_cons_zero, Option.some.injEq, Prod.mk.injEq] at h
      obtain ⟨-, rfl⟩ := h
      obtain rfl : (⟨at' "x" [.var 1], [.sub (at' "a" [.var 1]), .val .f]⟩ : WRule TV) = s := Option.some.inj hs
      exact ⟨by simp, [(2, 1), (1, 0)], rfl, by decide⟩
    · simp [undo1, goodC] at h
  align := by
    intro n m R h1 h2
    have h3 : (undo1 tvC goodC).rules = goodD.rules := rfl
    have h4 : (undo1 tvC goodC).unf.old = goodD.rules := rfl
    rw [h3] at h1
    rw [h4] at h2
    obtain ⟨a1, a2⟩ := List.getElem?_eq_some_iff.1 h1
    obtain ⟨b1, b2⟩ := List.getElem?_eq_some_iff.1 h2
    have : n = m := (List.Nodup.getElem_inj_iff goodD_ok.distinct).1 (a2.trans b2.symm)
    subst this
    simp only [undo1]
    rw [if_pos (by simpa [goodD] using a1)]

/-- the hypotheses of the theorems hold -/
theorem goodC_step : Step ltOps goodC ⟨at' "goal" [.var 0], [.sub (at' "b" [.var 0]), .sub (at' "x" [.var 0])]⟩ (at' "x" [.var 0]) := by
  obtain ⟨c, h1, -, -, h4⟩ := goodD_ok.step TV.t
  obtain ⟨f, hf⟩ := h1.exists'
  obtain ⟨N, hN⟩ := h1
  have := (hN (N + 20) (by omega)).symm.trans (goodC_eq N)
  obtain rfl := Option.some.inj this
  exact h4

example (d d' : DUnfold.Tree TV) := C82_round_trip tvC goodC_step goodC_exact (d := d) (d' := d')
example (d' : DUnfold.Tree TV) := C82_inverse tvC goodC_step goodC_exact (d' := d')

/-- the hypotheses of `C82_records` hold -/
example {f : Nat} {al : List (Nat × Nat)} {rem : List Nat}
    (h : bookOf f id tvC List.getLast? ⟨at' "goal" [.var 9], [.sub (at' "b" [.var 9]), .sub (at' "a" [.var 9]), .val .f]⟩
      ⟨at' "x" [.var 1], [.sub (at' "a" [.var 1]), .val .f]⟩ = some (al, rem)) : al.Perm [(1, 0), (2, 1)] ∧ rem = [0] := by
  refine C82_records (j := 1) (e := 0) (fun l => .refl l) (fun l t h => List.mem_of_getLast? h) ?_ rfl ?_ h
  · simp [bodyVars, litVars]
  · rintro al ⟨-, τ, h⟩
    cases h with
    | cons h1 h2 =>
    cases h2 with
    | cons h2 h3 =>
    cases h3
    rename_i a b
    obtain ⟨l1, e1, e2⟩ := h1
    obtain ⟨l2, e3, e4⟩ := h2
    have ha : a = 1 := by
      rcases a with _ | _ | _ | a <;> simp at e1 <;> subst e1 <;> simp [Measure.litTm, tvC] at e2 ⊢
    have hb : b = 2 := by
      rcases b with _ | _ | _ | b <;> simp at e3 <;> subst e3 <;> simp [Measure.litTm, tvC] at e4 ⊢
    subst ha hb
    rfl

end Example

end DFold
end Verif
