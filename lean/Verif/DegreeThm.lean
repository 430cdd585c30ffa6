/-
Property C74: degrees of programs and variable elimination.
-/
import Verif.Degree
import Verif.HookThm

set_option linter.unusedSectionVars false
set_option linter.unusedSimpArgs false

namespace Verif
open Tm Heap
open Sem

namespace Degree
open Unfold (Prog Ops)
open Hook (Env hook Lists rest picked outVars absorb revRule genName syms hook_inv Gen)
variable {W : Type}

/-- every set is listed once -/
def Enum (ord : Finset Nat → List Nat) : Prop := ∀ s, (ord s).Nodup ∧ (ord s).toFinset = s

theorem Enum.lists {ord : Finset Nat → List Nat} (h : Enum ord) : Lists ord := fun s => (h s).2

theorem Enum.mem {ord : Finset Nat → List Nat} (h : Enum ord) (s : Finset Nat) (v : Nat) : v ∈ ord s ↔ v ∈ s := by
  conv_rhs => rw [← (h s).2]
  exact List.mem_toFinset.symm

/-! ### The analyzer -/

/-- the numbers, from `i` on, of the elements that mention `v` -/
def occ (v : Nat) : Nat → List (Lit W) → List Nat
  | _, [] => []
  | i, x :: xs => (if v ∈ litVars x then [i] else []) ++ occ v (i + 1) xs

/-- the numbers, from `i` on, of the elements that mention a variable -/
def occAny : Nat → List (Lit W) → List Nat
  | _, [] => []
  | i, x :: xs => (if litVars x ≠ ∅ then [i] else []) ++ occAny (i + 1) xs

theorem note_fst (i : Nat) (s : Scan) : ∀ (l : List Nat), l.Nodup → ∀ v, (l.foldl (note i) s).1 v = s.1 v ++ (if v ∈ l then [i] else [])
  | [], _, v => by simp
  | a :: l, hl, v => by
    rw [List.foldl_cons, note_fst i (note i s a) l (List.nodup_cons.1 hl).2 v]
    by_cases hv : v = a
    · subst hv
      simp [note, (List.nodup_cons.1 hl).1]
    · simp [note, Function.update_of_ne hv, hv]

theorem note_snd (i : Nat) : ∀ (l : List Nat) (s : Scan) (j : Nat), j ∈ (l.foldl (note i) s).2 ↔ j ∈ s.2 ∨ (l ≠ [] ∧ j = i)
  | [], s, j => by simp
  | a :: l, s, j => by
    rw [List.foldl_cons, note_snd i l (note i s a) j]
    by_cases h : i ∈ s.2
    · simp only [note, if_pos h, ne_eq, reduceCtorEq, not_false_eq_true, true_and]
      constructor
      · rintro (h1 | h1)
        · exact .inl h1
        · exact .inr h1.2
      · rintro (h1 | rfl)
        · exact .inl h1
        · exact .inl h
    · simp only [note, if_neg h, List.mem_append, List.mem_singleton, ne_eq, reduceCtorEq, not_false_eq_true, true_and]
      tauto

theorem scan_spec {ord : Finset Nat → List Nat} (ho : Enum ord) : ∀ (xs : List (Lit W)) (i : Nat) (s : Scan),
    (∀ v, (scan ord i xs s).1 v = s.1 v ++ occ v i xs) ∧ ∀ j, j ∈ (scan ord i xs s).2 ↔ j ∈ s.2 ∨ j ∈ occAny i xs
  | [], i, s => by simp [scan, occ, occAny]
  | x :: xs, i, s => by
    obtain ⟨h1, h2⟩ := scan_spec ho xs (i + 1) ((ord (litVars x)).foldl (note i) s)
    refine ⟨fun v => ?_, fun j => ?_⟩
    · rw [scan, h1, note_fst i s _ (ho _).1]
      simp only [ho.mem, occ, List.append_assoc]
    · rw [scan, h2, note_snd]
      have : ord (litVars x) ≠ [] ↔ litVars x ≠ ∅ := by
        conv_rhs => rw [← (ho (litVars x)).2]
        simp
      rw [this]
      simp only [occAny, List.mem_append]
      by_cases hx : litVars x ≠ ∅
      · simp only [hx, not_false_eq_true, if_true, List.mem_singleton, true_and, ne_eq]; tauto
      · simp only [hx, if_false, List.not_mem_nil, false_and, or_false, false_or]

theorem mem_occ {v : Nat} : ∀ {xs : List (Lit W)} {i j : Nat}, j ∈ occ v i xs ↔ i ≤ j ∧ ∃ l, xs[j - i]? = some l ∧ v ∈ litVars l
  | [], i, j => by simp [occ]
  | x :: xs, i, j => by
    rw [occ, List.mem_append, mem_occ]
    rcases Nat.lt_trichotomy i j with h | rfl | h
    · have e : j - i = (j - (i + 1)) + 1 := by omega
      rw [e, List.getElem?_cons_succ]
      have : ¬ j ∈ (if v ∈ litVars x then [i] else []) := by split <;> simp; omega
      simp only [this, false_or]
      constructor
      · rintro ⟨_, h2⟩; exact ⟨by omega, h2⟩
      · rintro ⟨_, h2⟩; exact ⟨by omega, h2⟩
    · simp only [Nat.sub_self, List.getElem?_cons_zero, Option.some.injEq, exists_eq_left', le_refl, true_and]
      constructor
      · rintro (h | ⟨h, _⟩)
        · split at h
          · assumption
          · simp at h
        · omega
      · intro h; left; simp [h]
    · have : ¬ j ∈ (if v ∈ litVars x then [i] else []) := by split <;> simp; omega
      simp only [this, false_or]
      constructor
      · rintro ⟨h1, _⟩; omega
      · rintro ⟨h1, _⟩; omega

theorem mem_occAny : ∀ {xs : List (Lit W)} {i j : Nat}, j ∈ occAny i xs ↔ i ≤ j ∧ ∃ l, xs[j - i]? = some l ∧ litVars l ≠ ∅
  | [], i, j => by simp [occAny]
  | x :: xs, i, j => by
    rw [occAny, List.mem_append, mem_occAny]
    rcases Nat.lt_trichotomy i j with h | rfl | h
    · have e : j - i = (j - (i + 1)) + 1 := by omega
      rw [e, List.getElem?_cons_succ]
      have : ¬ j ∈ (if litVars x ≠ ∅ then [i] else []) := by split <;> simp; omega
      simp only [this, false_or]
      constructor
      · rintro ⟨_, h2⟩; exact ⟨by omega, h2⟩
      · rintro ⟨_, h2⟩; exact ⟨by omega, h2⟩
    · simp only [Nat.sub_self, List.getElem?_cons_zero, Option.some.injEq, exists_eq_left', le_refl, true_and]
      constructor
      · rintro (h | ⟨h, _⟩)
        · split at h
          · assumption
          · simp at h
        · omega
      · intro h; left; simp [h]
    · have : ¬ j ∈ (if litVars x ≠ ∅ then [i] else []) := by split <;> simp; omega
      simp only [this, false_or]
      constructor
      · rintro ⟨h1, _⟩; omega
      · rintro ⟨h1, _⟩; omega

theorem occ_sorted (v : Nat) : ∀ (xs : List (Lit W)) (i : Nat), (occ v i xs).Pairwise (· < ·)
  | [], i => by simp [occ]
  | x :: xs, i => by
    rw [occ, List.pairwise_append]
    refine ⟨by split <;> simp, occ_sorted v xs (i + 1), fun a ha b hb => ?_⟩
    have := (mem_occ.1 hb).1
    split at ha
    · simp only [List.mem_singleton] at ha; omega
    · simp at ha

theorem v2f_eq {ord : Finset Nat → List Nat} (ho : Enum ord) (r : WRule W) (v : Nat) : (analyzer ord r).v2f v = occ v 0 r.body := by
  have := (scan_spec ho r.body 0 (fun _ => [], [])).1 v
  simpa [analyzer] using this

theorem mem_v2f {ord : Finset Nat → List Nat} (ho : Enum ord) {r : WRule W} {v j : Nat} :
    j ∈ (analyzer ord r).v2f v ↔ ∃ l, r.body[j]? = some l ∧ v ∈ litVars l := by
  rw [v2f_eq ho, mem_occ]; simp

theorem v2f_nodup {ord : Finset Nat → List Nat} (ho : Enum ord) (r : WRule W) (v : Nat) : ((analyzer ord r).v2f v).Nodup := by
  rw [v2f_eq ho]
  exact (occ_sorted v r.body 0).imp fun h => Nat.ne_of_lt h

theorem mem_canElim {ord : Finset Nat → List Nat} (ho : Enum ord) {r : WRule W} {v : Nat} :
    v ∈ (analyzer ord r).canElim ↔ v ∈ bodyVars r.body ∧ v ∉ vars r.head ∧ ∃ l ∈ r.body, litVars l ≠ ∅ ∧ v ∉ litVars l := by
  have hv : (scan ord 0 r.body (fun _ => [], [])).1 v = occ v 0 r.body := by simpa using (scan_spec ho r.body 0 (fun _ => [], [])).1 v
  have hf : ∀ j, j ∈ (scan ord 0 r.body (fun _ => [], [])).2 ↔ j ∈ occAny 0 r.body := by
    intro j; simpa using (scan_spec ho r.body 0 (fun _ => [], [])).2 j
  simp only [analyzer, List.mem_filter, ho.mem, decide_eq_true_eq, Finset.mem_sdiff, rvars, Finset.mem_union, hv]
  have hsub : (occ v 0 r.body).toFinset ⊆ (scan ord 0 r.body (fun _ => [], [])).2.toFinset := by
    intro j hj
    rw [List.mem_toFinset] at hj ⊢
    rw [hf, mem_occAny]
    obtain ⟨h0, l, hl, hv⟩ := mem_occ.1 hj
    exact ⟨h0, l, hl, fun he => by rw [he] at hv; simp at hv⟩
  rw [Finset.ssubset_iff_subset_ne, and_iff_right hsub]
  have key : (occ v 0 r.body).toFinset ≠ (scan ord 0 r.body (fun _ => [], [])).2.toFinset ↔ ∃ l ∈ r.body, litVars l ≠ ∅ ∧ v ∉ litVars l := by
    constructor
    · intro hne
      by_contra hc
      push Not at hc
      refine hne (Finset.Subset.antisymm hsub fun j hj => ?_)
      rw [List.mem_toFinset, hf, mem_occAny] at hj
      obtain ⟨h0, l, hl, hn⟩ := hj
      rw [List.mem_toFinset, mem_occ]
      exact ⟨h0, l, hl, hc l (List.mem_of_getElem? hl) (Finset.nonempty_iff_ne_empty.2 hn)⟩
    · rintro ⟨l, hl, hn, hv⟩ he
      obtain ⟨j, hj⟩ := List.mem_iff_getElem?.1 hl
      have h1 : j ∈ (scan ord 0 r.body (fun _ => [], [])).2.toFinset := by
        rw [List.mem_toFinset, hf, mem_occAny]; exact ⟨Nat.zero_le _, l, by simpa using hj, hn⟩
      rw [← he, List.mem_toFinset, mem_occ] at h1
      obtain ⟨_, l', hl', hv'⟩ := h1
      rw [Nat.sub_zero, hj] at hl'
      exact hv (Option.some.inj hl' ▸ hv')
  rw [key]
  tauto

/-- **C74 (the analyzer).**  `v2f[v]` lists, in increasing order and once each, the positions of the body elements that mention `v`;
a variable can be eliminated exactly if it is not in the head and some body element mentions variables but not this one;
the degree is the number of variables of the rule. -/
theorem C74_analyzer {ord : Finset Nat → List Nat} (ho : Enum ord) (r : WRule W) (v : Nat) :
    ((analyzer ord r).v2f v).Pairwise (· < ·) ∧
    (∀ j, j ∈ (analyzer ord r).v2f v ↔ ∃ l, r.body[j]? = some l ∧ v ∈ litVars l) ∧
    (v ∈ (analyzer ord r).canElim ↔ v ∈ bodyVars r.body ∧ v ∉ vars r.head ∧ ∃ l ∈ r.body, litVars l ≠ ∅ ∧ v ∉ litVars l) ∧
    (analyzer ord r).canElim.Nodup ∧ (analyzer ord r).degree = (vars r.head ∪ bodyVars r.body).card :=
  ⟨v2f_eq ho r v ▸ occ_sorted v r.body 0, fun _ => mem_v2f ho, mem_canElim ho, ((ho _).1.filter _), rfl⟩

/-! ### Degrees -/

theorem descending_perm (l : List Nat) : (descending l).Perm l :=
  (List.reverse_perm _).trans (List.perm_insertionSort _ l)

theorem descending_sorted (l : List Nat) : (descending l).Pairwise (· ≥ ·) := by
  unfold descending
  rw [List.pairwise_reverse]
  exact List.pairwise_insertionSort _ l

/-- the number of rules of degree `d` -/
def rulesOf (p : Prog W) (d : Nat) : Nat := (p.rules.filter fun r => decide ((rvars r).card = d)).length

theorem count_map (l : List (WRule W)) (d : Nat) :
    (l.map fun r => (rvars r).card).count d = (l.filter fun r => decide ((rvars r).card = d)).length := by
  induction l with
  | nil => rfl
  | cons r l ih =>
    by_cases h : (rvars r).card = d
    · simp [h, ih]
    · simp [h, ih]

theorem count_degrees (ord : Finset Nat → List Nat) (p : Prog W) (d : Nat) : (degrees ord p).count d = rulesOf p d := by
  rw [degrees, (descending_perm _).count_eq]
  exact count_map p.rules d

/-- tuples in descending order are compared by multiplicities, the largest numbers first -/
theorem tupLt_iff : ∀ (a b : List Nat), a.Pairwise (· ≥ ·) → b.Pairwise (· ≥ ·) →
    (tupLt a b = true ↔ ∃ d, a.count d < b.count d ∧ ∀ e, d < e → a.count e = b.count e)
  | a, [], _, _ => by simp [tupLt]
  | [], b :: bs, _, hb => by
    simp only [tupLt, true_iff]
    refine ⟨b, by simp, fun e he => ?_⟩
    symm
    rw [List.count_nil, List.count_eq_zero]
    intro hm
    rcases List.mem_cons.1 hm with rfl | hm
    · omega
    · have := List.rel_of_pairwise_cons hb hm; omega
  | a :: as, b :: bs, ha, hb => by
    have ha' : ∀ e, a < e → (a :: as).count e = 0 := fun e he => by
      rw [List.count_eq_zero]; intro hm
      rcases List.mem_cons.1 hm with rfl | hm
      · omega
      · have := List.rel_of_pairwise_cons ha hm; omega
    have hb' : ∀ e, b < e → (b :: bs).count e = 0 := fun e he => by
      rw [List.count_eq_zero]; intro hm
      rcases List.mem_cons.1 hm with rfl | hm
      · omega
      · have := List.rel_of_pairwise_cons hb hm; omega
    have ha1 : 0 < (a :: as).count a := by simp
    have hb1 : 0 < (b :: bs).count b := by simp
    rw [tupLt]
    rcases Nat.lt_trichotomy a b with h | rfl | h
    · rw [if_neg (by omega)]
      simp only [h, decide_true, true_iff]
      refine ⟨b, by rw [ha' b h]; exact hb1, fun e he => ?_⟩
      rw [hb' e he, ha' e (by omega)]
    · rw [if_pos rfl, tupLt_iff as bs ha.of_cons hb.of_cons]
      refine exists_congr fun d => ?_
      simp only [List.count_cons]
      constructor
      · rintro ⟨h1, h2⟩; exact ⟨by omega, fun e he => by rw [h2 e he]⟩
      · rintro ⟨h1, h2⟩; exact ⟨by omega, fun e he => by have := h2 e he; omega⟩
    · rw [if_neg (by omega)]
      have : ¬ a < b := by omega
      simp only [this, decide_false, Bool.false_eq_true, false_iff, not_exists, not_and]
      intro d h1 h2
      rcases Nat.lt_trichotomy d a with h3 | rfl | h3
      · have := h2 a h3; rw [hb' a h] at this; omega
      · rw [hb' d h] at h1; omega
      · rw [hb' d (by omega)] at h1; omega

/-- **C74 (degrees).**  The degrees are listed from the largest down, one for each rule; the degree of the program is the
first of them (0 for the empty program), so it is attained and bounds the number of variables of every rule. -/
theorem C74_degrees (ord : Finset Nat → List Nat) (p : Prog W) :
    (degrees ord p).Perm (p.rules.map fun r => (vars r.head ∪ bodyVars r.body).card) ∧ (degrees ord p).Pairwise (· ≥ ·) ∧
    degree ord p = (degrees ord p).headD 0 ∧ ∀ r ∈ p.rules, (rvars r).card ≤ degree ord p := by
  have hp : (degrees ord p).Perm (p.rules.map fun r => (rvars r).card) := descending_perm _
  have hs : (degrees ord p).Pairwise (· ≥ ·) := descending_sorted _
  have hle : ∀ (l : List Nat), ∀ x ∈ l, x ≤ l.foldr max 0 := by
    intro l
    induction l with
    | nil => simp
    | cons a l ih =>
      intro x hx
      rcases List.mem_cons.1 hx with rfl | hx
      · exact le_max_left _ _
      · exact le_trans (ih x hx) (le_max_right _ _)
  have hmem : ∀ (l : List Nat), l.foldr max 0 ∈ l ∨ l = [] := by
    intro l
    induction l with
    | nil => exact .inr rfl
    | cons a l ih =>
      left
      rw [List.foldr_cons]
      rcases ih with ih | rfl
      · rcases max_choice a (l.foldr max 0) with h | h
        · rw [h]; simp
        · rw [h]; exact List.mem_cons_of_mem _ ih
      · simp
  have hdeg : ∀ r ∈ p.rules, (rvars r).card ≤ degree ord p := fun r hr => hle _ _ (List.mem_map.2 ⟨r, hr, rfl⟩)
  refine ⟨hp, hs, ?_, hdeg⟩
  rcases hmem (p.rules.map fun r => (analyzer ord r).degree) with h | h
  · have h' : degree ord p ∈ degrees ord p := hp.mem_iff.2 h
    cases hl : degrees ord p with
    | nil => rw [hl] at h'; simp at h'
    | cons d ds =>
      rw [hl] at h' hs
      have h1 : d ∈ degrees ord p := by rw [hl]; simp
      obtain ⟨r, hr, hd⟩ := List.mem_map.1 (hp.mem_iff.1 h1)
      have h2 : d ≤ degree ord p := hd ▸ hdeg r hr
      simp only [List.headD_cons]
      rcases List.mem_cons.1 h' with h3 | h3
      · exact h3
      · have := List.rel_of_pairwise_cons hs h3; omega
  · have h0 : p.rules = [] := List.map_eq_nil_iff.1 h
    simp [degree, degrees, h0, descending]

/-- **C74 (comparing costs).**  `p.degrees() < q.degrees()` says that at the largest number of variables for which the two
programs have different numbers of rules, `p` has fewer. -/
theorem C74_order (ord : Finset Nat → List Nat) (p q : Prog W) :
    tupLt (degrees ord p) (degrees ord q) = true ↔ ∃ d, rulesOf p d < rulesOf q d ∧ ∀ e, d < e → rulesOf p e = rulesOf q e := by
  rw [tupLt_iff (degrees ord p) (degrees ord q) (descending_sorted _) (descending_sorted _)]
  simp only [count_degrees]

theorem desc_unique {a b : List Nat} (h : a.Perm b) (ha : a.Pairwise (· ≥ ·)) (hb : b.Pairwise (· ≥ ·)) : a = b :=
  h.eq_of_pairwise (fun x y _ _ h1 h2 => Nat.le_antisymm h2 h1) ha hb

/-- **C74 (product of costs).**  The cost of two programs put together is the product of their costs. -/
theorem C74_product (ord : Finset Nat → List Nat) (p q : Prog W) :
    degrees ord ⟨p.rules ++ q.rules, p.inputs⟩ = mul (degrees ord p) (degrees ord q) := by
  refine desc_unique ?_ (descending_sorted _) (descending_sorted _)
  refine (descending_perm _).trans (.symm ((descending_perm _).trans ?_))
  simp only [List.map_append]
  exact (descending_perm _).append (descending_perm _)

/-! ### Eliminating a variable -/

theorem degree_le {ord : Finset Nat → List Nat} {p : Prog W} {k : Nat} (h : ∀ r ∈ p.rules, (rvars r).card ≤ k) : degree ord p ≤ k := by
  have : ∀ l : List Nat, (∀ x ∈ l, x ≤ k) → l.foldr max 0 ≤ k := by
    intro l
    induction l with
    | nil => simp
    | cons a l ih =>
      intro hl
      rw [List.foldr_cons]
      exact max_le (hl a (by simp)) (ih fun x hx => hl x (List.mem_cons_of_mem _ hx))
  refine this _ fun x hx => ?_
  obtain ⟨r, hr, rfl⟩ := List.mem_map.1 hx
  exact h r hr

section
variable [CSemi W]

theorem mem_picked_v2f {ord : Finset Nat → List Nat} (ho : Enum ord) {r : WRule W} {v : Nat} {l : Lit W} :
    l ∈ picked r ((analyzer ord r).v2f v) ↔ l ∈ r.body ∧ v ∈ litVars l := by
  simp only [picked, List.mem_filterMap, mem_v2f ho]
  constructor
  · rintro ⟨j, ⟨l', h1, h2⟩, h3⟩
    rw [h1] at h3
    obtain rfl := Option.some.inj h3
    exact ⟨List.mem_of_getElem? h1, h2⟩
  · rintro ⟨h1, h2⟩
    obtain ⟨j, hj⟩ := List.mem_iff_getElem?.1 h1
    exact ⟨j, ⟨l, hj, h2⟩, hj⟩

theorem mem_rest_v2f {ord : Finset Nat → List Nat} (ho : Enum ord) {r : WRule W} {v : Nat} {l : Lit W}
    (h : l ∈ rest r ((analyzer ord r).v2f v)) : l ∈ r.body ∧ v ∉ litVars l := by
  refine ⟨Hook.mem_rest h, fun hv => ?_⟩
  simp only [rest, List.mem_filterMap, List.mem_filter, decide_eq_true_eq, mem_v2f ho] at h
  obtain ⟨j, ⟨_, h2⟩, h3⟩ := h
  exact h2 ⟨l, h3, hv⟩

theorem v2f_lt {ord : Finset Nat → List Nat} (ho : Enum ord) {r : WRule W} {v : Nat} : ∀ j ∈ (analyzer ord r).v2f v, j < r.body.length := by
  intro j hj
  obtain ⟨l, hl, _⟩ := (mem_v2f ho).1 hj
  exact (List.getElem?_eq_some_iff.1 hl).1

theorem rvars_tmp {ord : Finset Nat → List Nat} (ho : Lists ord) (r : WRule W) (js : List Nat) (name : Const) :
    rvars (absorb ord r js name) = bodyVars (picked r js) := by
  ext n
  have h1 := Hook.vars_absorb ho r js name
  have h2 : (absorb ord r js name).body = picked r js := rfl
  simp only [rvars, h1, h2, outVars, Finset.mem_union, Finset.mem_sdiff]
  tauto

theorem rvars_rev {ord : Finset Nat → List Nat} (ho : Enum ord) {r : WRule W} {v : Nat} (hv : v ∈ bodyVars r.body) (hh : v ∉ vars r.head)
    (name : Const) : rvars (revRule r (absorb ord r ((analyzer ord r).v2f v) name) ((analyzer ord r).v2f v)) ⊆ rvars r \ {v} := by
  intro n hn
  simp only [revRule, rvars, bodyVars, litVars, Finset.mem_union, Hook.vars_absorb ho.lists] at hn
  simp only [rvars, Finset.mem_sdiff, Finset.mem_union, Finset.mem_singleton]
  have hrest : v ∉ bodyVars (rest r ((analyzer ord r).v2f v)) := by
    intro h
    obtain ⟨l, hl, h⟩ := mem_bodyVars.1 h
    exact (mem_rest_v2f ho hl).2 h
  rcases hn with hn | hn | hn
  · exact ⟨.inl hn, fun e => hh (e ▸ hn)⟩
  · simp only [outVars, Finset.mem_sdiff, Finset.mem_union, not_and, not_not, not_or] at hn
    obtain ⟨l, hl, h⟩ := mem_bodyVars.1 hn.1
    have hb : n ∈ bodyVars r.body := mem_bodyVars.2 ⟨l, Hook.mem_picked hl, h⟩
    refine ⟨.inr hb, ?_⟩
    rintro rfl
    exact hh (hn.2 hb hrest)
  · obtain ⟨l, hl, h⟩ := mem_bodyVars.1 hn
    exact ⟨.inr (mem_bodyVars.2 ⟨l, Hook.mem_rest hl, h⟩), fun e => hrest (e ▸ hn)⟩

theorem picked_rest_length {r : WRule W} {js : List Nat} (hn : js.Nodup) (hl : ∀ j ∈ js, j < r.body.length) :
    (picked r js).length + (rest r js).length = r.body.length := by
  rw [(Hook.body_perm hn hl).length_eq, List.length_append]

variable [DecidableEq W] {S' : Type} [DecidableEq S']

/-- one elimination: `hook` on the factors of a variable that can be eliminated, with the generated name number `c + 1` -/
def Elim (e : Env W S') (p q : Prog W) (c : Nat) : Prop :=
  ∃ f i r v, p.rules[i]? = some r ∧ v ∈ (analyzer e.ord r).canElim ∧ hook f e p c i ((analyzer e.ord r).v2f v) = some (q, c + 1)

/-- the shape of the result -/
theorem elim_shape {f : Nat} {e : Env W S'} (ho : Enum e.ord) {p q : Prog W} {c c' i v : Nat} {r : WRule W} (hr : p.rules[i]? = some r)
    (hv : v ∈ (analyzer e.ord r).canElim) (h : hook f e p c i ((analyzer e.ord r).v2f v) = some (q, c')) :
    ∃ rev tmp : WRule W, q.rules = rev :: (p.rules.eraseIdx i ++ [tmp]) ∧ q.inputs = p.inputs ∧ rvars rev ⊆ rvars r \ {v} ∧
      (∀ n, n ∈ rvars tmp ↔ ∃ l ∈ r.body, n ∈ litVars l ∧ v ∈ litVars l) ∧ tmp.body.length < r.body.length ∧ rev.body.length ≤ r.body.length := by
  obtain ⟨r', hr', -, -, -, rfl⟩ := hook_inv h
  obtain rfl : r' = r := by rw [hr] at hr'; exact (Option.some.inj hr').symm
  obtain ⟨h1, h2, l0, hl0, hn0, hv0⟩ := (mem_canElim ho).1 hv
  have hi : i < p.rules.length := (List.getElem?_eq_some_iff.1 hr).1
  have hlen := picked_rest_length (v2f_nodup ho r' v) (v2f_lt ho (r := r') (v := v))
  have hp : 0 < (picked r' ((analyzer e.ord r').v2f v)).length := by
    obtain ⟨l, hl, hvl⟩ := mem_bodyVars.1 h1
    exact List.length_pos_of_mem ((mem_picked_v2f ho).2 ⟨hl, hvl⟩)
  have hq : 0 < (rest r' ((analyzer e.ord r').v2f v)).length := by
    rcases List.mem_append.1 ((Hook.body_perm (v2f_nodup ho r' v) (v2f_lt ho)).mem_iff.1 hl0) with h | h
    · exact absurd ((mem_picked_v2f ho).1 h).2 hv0
    · exact List.length_pos_of_mem h
  refine ⟨revRule r' (absorb e.ord r' ((analyzer e.ord r').v2f v) (genName (c + 1))) ((analyzer e.ord r').v2f v),
    absorb e.ord r' ((analyzer e.ord r').v2f v) (genName (c + 1)), ?_, rfl, rvars_rev ho h1 h2 _, ?_, ?_, ?_⟩
  · show revRule r' _ _ :: Fold.minus (p.rules ++ [_]) {i} = _
    rw [Hook.minus_single, List.eraseIdx_append_of_lt_length hi]
  · intro n
    rw [rvars_tmp ho.lists, mem_bodyVars]
    constructor
    · rintro ⟨l, hl, hn⟩
      have := (mem_picked_v2f ho).1 hl
      exact ⟨l, this.1, hn, this.2⟩
    · rintro ⟨l, hl, hn, hvl⟩
      exact ⟨l, (mem_picked_v2f ho).2 ⟨hl, hvl⟩, hn⟩
  · show (picked r' _).length < _
    omega
  · simp only [revRule, List.length_cons]
    omega

theorem rulesOf_shape {p q : Prog W} {i : Nat} {r rev tmp : WRule W} (hr : p.rules[i]? = some r) (hq : q.rules = rev :: (p.rules.eraseIdx i ++ [tmp]))
    (d : Nat) : rulesOf q d + (if (rvars r).card = d then 1 else 0) =
      rulesOf p d + (if (rvars rev).card = d then 1 else 0) + (if (rvars tmp).card = d then 1 else 0) := by
  obtain ⟨hi, hri⟩ := List.getElem?_eq_some_iff.1 hr
  have hp : p.rules.Perm (r :: p.rules.eraseIdx i) := by
    have := List.getElem_cons_eraseIdx_perm hi
    rw [hri] at this
    exact this.symm
  have e1 : rulesOf p d = ((r :: p.rules.eraseIdx i).filter fun r => decide ((rvars r).card = d)).length := (hp.filter _).length_eq
  rw [e1, rulesOf, hq]
  simp only [List.filter_cons, List.filter_append, List.filter_nil, decide_eq_true_eq]
  split <;> split <;> split <;> simp <;> omega

/-- **C74 (elimination).**  Hooking the factors of a variable `v` that can be eliminated replaces the rule by one without `v` (and
without new variables) and adds one whose variables are those that share a factor with `v`; the first has at most as many
factors as before, the second fewer.  The degree of the program does not grow; its cost `degrees()` gets
smaller exactly if the rule has a variable that shares no factor with `v`. -/
theorem C74_elimination {f : Nat} {e : Env W S'} (ho : Enum e.ord) {p q : Prog W} {c c' i v : Nat} {r : WRule W} (hr : p.rules[i]? = some r)
    (hv : v ∈ (analyzer e.ord r).canElim) (h : hook f e p c i ((analyzer e.ord r).v2f v) = some (q, c')) :
    (∃ rev tmp : WRule W, q.rules = rev :: (p.rules.eraseIdx i ++ [tmp]) ∧ rvars rev ⊆ rvars r \ {v} ∧
      (∀ n, n ∈ rvars tmp ↔ ∃ l ∈ r.body, n ∈ litVars l ∧ v ∈ litVars l) ∧ tmp.body.length < r.body.length ∧ rev.body.length ≤ r.body.length) ∧
    degree e.ord q ≤ degree e.ord p ∧
    (tupLt (degrees e.ord q) (degrees e.ord p) = true ↔ ∃ n ∈ rvars r, ∀ l ∈ r.body, n ∈ litVars l → v ∉ litVars l) := by
  obtain ⟨rev, tmp, h1, hin, h2, h3, h4, h5⟩ := elim_shape ho hr hv h
  have hmem : r ∈ p.rules := List.mem_of_getElem? hr
  have htr : rvars tmp ⊆ rvars r := fun n hn => by
    obtain ⟨l, hl, hn, _⟩ := (h3 n).1 hn
    exact litVars_sub_rvars hl hn
  have hvr : v ∈ rvars r := by
    obtain ⟨hb, -, -⟩ := (mem_canElim ho).1 hv
    simp only [rvars, Finset.mem_union]; exact .inr hb
  have hrev : (rvars rev).card < (rvars r).card :=
    Finset.card_lt_card ((Finset.ssubset_iff_of_subset (h2.trans Finset.sdiff_subset)).2
      ⟨v, hvr, fun h => by have := h2 h; simp at this⟩)
  have hdeg := (C74_degrees e.ord p).2.2.2
  refine ⟨⟨rev, tmp, h1, h2, h3, h4, h5⟩, degree_le ?_, ?_⟩
  · intro t ht
    rw [h1] at ht
    simp only [List.mem_cons, List.mem_append, List.not_mem_nil, or_false] at ht
    rcases ht with rfl | ht | rfl
    · exact le_trans hrev.le (hdeg r hmem)
    · exact hdeg t (List.mem_of_mem_eraseIdx ht)
    · exact le_trans (Finset.card_le_card htr) (hdeg r hmem)
  · rw [C74_order]
    have key : (∃ n ∈ rvars r, ∀ l ∈ r.body, n ∈ litVars l → v ∉ litVars l) ↔ (rvars tmp).card < (rvars r).card := by
      constructor
      · rintro ⟨n, hn, hl⟩
        refine Finset.card_lt_card ((Finset.ssubset_iff_of_subset htr).2 ⟨n, hn, fun h => ?_⟩)
        obtain ⟨l, h6, h7, h8⟩ := (h3 n).1 h
        exact hl l h6 h7 h8
      · intro hlt
        by_contra hc
        push Not at hc
        refine absurd (Finset.card_le_card fun n hn => ?_) (not_le.2 hlt)
        obtain ⟨l, h6, h7, h8⟩ := hc n hn
        exact (h3 n).2 ⟨l, h6, h7, h8⟩
    rw [key]
    have hs := rulesOf_shape hr h1
    constructor
    · rintro ⟨d, hd, _⟩
      by_contra hc
      have he : (rvars tmp).card = (rvars r).card := le_antisymm (Finset.card_le_card htr) (not_lt.1 hc)
      have := hs d
      rw [he] at this
      omega
    · intro hlt
      refine ⟨(rvars r).card, ?_, fun d hd => ?_⟩
      · have := hs (rvars r).card
        rw [if_pos rfl, if_neg (by omega), if_neg (by omega)] at this
        omega
      · have := hs d
        rw [if_neg (by omega), if_neg (by omega), if_neg (by omega)] at this
        omega

/-- **C74 (variables that cannot be eliminated).**  For a local variable that is not in `can_elim`, hooking its factors would be
useless: they already contain all variables of the body. -/
theorem C74_useless {ord : Finset Nat → List Nat} (ho : Enum ord) {r : WRule W} {v : Nat} (hb : v ∈ bodyVars r.body) (hh : v ∉ vars r.head)
    (hv : v ∉ (analyzer ord r).canElim) (name : Const) : rvars (absorb ord r ((analyzer ord r).v2f v) name) = bodyVars r.body := by
  rw [rvars_tmp ho.lists]
  ext n
  constructor
  · intro h
    obtain ⟨l, hl, hn⟩ := mem_bodyVars.1 h
    exact mem_bodyVars.2 ⟨l, Hook.mem_picked hl, hn⟩
  · intro h
    obtain ⟨l, hl, hn⟩ := mem_bodyVars.1 h
    refine mem_bodyVars.2 ⟨l, (mem_picked_v2f ho).2 ⟨hl, ?_⟩, hn⟩
    by_contra hc
    exact hv ((mem_canElim ho).2 ⟨hb, hh, l, hl, fun e => by rw [e] at hn; simp at hn, hc⟩)

/-! ### Chains of eliminations -/

/-- a bound on what eliminations can make of one rule -/
def load (r : WRule W) : Nat := 2 ^ ((rvars r).card + r.body.length + 1) - 1

theorem load_split {r rev tmp : WRule W} (h1 : (rvars rev).card + rev.body.length < (rvars r).card + r.body.length)
    (h2 : (rvars tmp).card + tmp.body.length < (rvars r).card + r.body.length) : load rev + load tmp < load r := by
  unfold load
  have a1 : 2 ^ ((rvars rev).card + rev.body.length + 1) ≤ 2 ^ ((rvars r).card + r.body.length) := Nat.pow_le_pow_right (by omega) (by omega)
  have a2 : 2 ^ ((rvars tmp).card + tmp.body.length + 1) ≤ 2 ^ ((rvars r).card + r.body.length) := Nat.pow_le_pow_right (by omega) (by omega)
  have a3 : 2 ^ ((rvars r).card + r.body.length + 1) = 2 * 2 ^ ((rvars r).card + r.body.length) := by rw [pow_succ]; ring
  have b1 : 0 < 2 ^ ((rvars rev).card + rev.body.length + 1) := Nat.pos_of_ne_zero (by positivity)
  have b2 : 0 < 2 ^ ((rvars tmp).card + tmp.body.length + 1) := Nat.pos_of_ne_zero (by positivity)
  omega

theorem load_pos (r : WRule W) : 0 < load r := by
  unfold load
  have : 2 ^ 1 ≤ 2 ^ ((rvars r).card + r.body.length + 1) := Nat.pow_le_pow_right (by omega) (by omega)
  omega

theorem elim_load {e : Env W S'} (ho : Enum e.ord) {p q : Prog W} {f c c' i v : Nat} {r : WRule W} (hr : p.rules[i]? = some r)
    (hv : v ∈ (analyzer e.ord r).canElim) (h : hook f e p c i ((analyzer e.ord r).v2f v) = some (q, c')) :
    ∃ rev tmp : WRule W, q.rules = rev :: (p.rules.eraseIdx i ++ [tmp]) ∧ load rev + load tmp < load r := by
  obtain ⟨rev, tmp, h1, hin, h2, h3, h4, h5⟩ := elim_shape ho hr hv h
  have htr : rvars tmp ⊆ rvars r := fun n hn => by
    obtain ⟨l, hl, hn, _⟩ := (h3 n).1 hn
    exact litVars_sub_rvars hl hn
  have hvr : v ∈ rvars r := by
    obtain ⟨hb, -, -⟩ := (mem_canElim ho).1 hv
    simp only [rvars, Finset.mem_union]; exact .inr hb
  have hrev : (rvars rev).card < (rvars r).card :=
    Finset.card_lt_card ((Finset.ssubset_iff_of_subset (h2.trans Finset.sdiff_subset)).2
      ⟨v, hvr, fun h => by have := h2 h; simp at this⟩)
  have := Finset.card_le_card htr
  exact ⟨rev, tmp, h1, load_split (by omega) (by omega)⟩

/-- chains of eliminations; `ns` are the numbers of the generated names (last first) -/
inductive Elims (e : Env W S') (p : Prog W) : List Nat → Prog W → Prop
  | nil : Elims e p [] p
  | step {ns q q' c} : Elims e p ns q → Elim e q q' c → Elims e p ((c + 1) :: ns) q'

theorem perm_sum_load {p : Prog W} {i : Nat} {r : WRule W} (hr : p.rules[i]? = some r) :
    (p.rules.map load).sum = load r + ((p.rules.eraseIdx i).map load).sum := by
  obtain ⟨hi, hri⟩ := List.getElem?_eq_some_iff.1 hr
  have := List.getElem_cons_eraseIdx_perm hi
  rw [hri] at this
  rw [← (this.map load).sum_eq, List.map_cons, List.sum_cons]

theorem elims_named {e : Env W S'} {p q : Prog W} {ns : List Nat} (hp : ∀ r ∈ p.rules, NamedRule r) (h : Elims e p ns q) :
    ∀ r ∈ q.rules, NamedRule r := by
  induction h with
  | nil => exact hp
  | step _ h2 ih =>
    obtain ⟨f, i, r, v, _, _, hh⟩ := h2
    exact Hook.hook_named ih hh

/-- **C74 (chains).**  Any chain of eliminations keeps the solutions on the items without a generated name, does not raise the degree, and is
no longer than a bound that is computed from the numbers of variables and factors of the rules. -/
theorem C74_chain {e : Env W S'} (ho : Enum e.ord) {p q : Prog W} {ns : List Nat} (hp : ∀ r ∈ p.rules, NamedRule r) (h : Elims e p ns q) :
    Conservative (fun x => ∃ n ∈ ns, IsFn (genName n) x) p.rules q.rules ∧ degree e.ord q ≤ degree e.ord p ∧
    ns.length ≤ (p.rules.map fun r => 2 ^ ((rvars r).card + r.body.length + 1) - 1).sum := by
  have key : Conservative (fun x => ∃ n ∈ ns, IsFn (genName n) x) p.rules q.rules ∧ degree e.ord q ≤ degree e.ord p ∧
      ns.length + (q.rules.map load).sum ≤ (p.rules.map load).sum := by
    induction h with
    | nil => exact ⟨.refl _ fun v x ⟨n, hn, _⟩ => by simp at hn, le_refl _, by simp⟩
    | step h1 h2 ih =>
      rename_i ns q q' c
      obtain ⟨f, i, r, v, hr, hv, hh⟩ := h2
      obtain ⟨ih1, ih2, ih3⟩ := ih
      refine ⟨?_, le_trans (C74_elimination ho hr hv hh).2.1 ih2, ?_⟩
      · have := ih1.trans (Hook.C35_hook ho.lists (v2f_nodup ho r v) (elims_named hp h1) hh)
        have e1 : (fun x => (∃ n ∈ ns, IsFn (genName n) x) ∨ IsFn (genName (c + 1)) x) = fun x => ∃ n ∈ (c + 1) :: ns, IsFn (genName n) x := by
          funext x
          simp only [List.mem_cons, exists_eq_or_imp, eq_iff_iff]
          exact or_comm
        rwa [e1] at this
      · obtain ⟨rev, tmp, hq, hlt⟩ := elim_load ho hr hv hh
        have hs := perm_sum_load hr
        rw [hq]
        simp only [List.length_cons, List.map_cons, List.sum_cons, List.map_append, List.sum_append, List.map_nil, List.sum_nil]
        omega
  exact ⟨key.1, key.2.1, by have := key.2.2; unfold load at this; omega⟩

/-- **C74 (chains, naive evaluation).**  The limits of naive evaluation are the same on all items without a generated name. -/
theorem C74_chain_least {W : Type} [OSemi W] [DecidableEq W] {e : Env W S'} (ho : Enum e.ord) {p q : Prog W} {ns : List Nat}
    (hp : ∀ r ∈ p.rules, NamedRule r) (h : Elims e p ns q) : SameLeast (fun x => ∃ n ∈ ns, IsFn (genName n) x) p.rules q.rules := by
  induction h with
  | nil => exact .refl _ _
  | step h1 h2 ih =>
    rename_i ns q q' c
    obtain ⟨f, i, r, v, hr, hv, hh⟩ := h2
    have := ih.trans (Hook.C35_hook_least ho.lists (v2f_nodup ho r v) (elims_named hp h1) hh).2
    have e1 : (fun x => (∃ n ∈ ns, IsFn (genName n) x) ∨ IsFn (genName (c + 1)) x) = fun x => ∃ n ∈ (c + 1) :: ns, IsFn (genName n) x := by
      funext x
      simp only [List.mem_cons, exists_eq_or_imp, eq_iff_iff]
      exact or_comm
    rwa [e1] at this

/-! ### The collection of all eliminations -/

/-- `shuf` only reorders -/
def Shuffles (shuf : List (List Nat) → List (List Nat)) : Prop := ∀ l, (shuf l).Perm l

theorem mem_proposals {shuf : List (List Nat) → List (List Nat)} (hs : Shuffles shuf) {ord : Finset Nat → List Nat} (ho : Enum ord) {r : WRule W}
    {js : List Nat} : js ∈ proposals shuf ord r ↔ ∃ v ∈ (analyzer ord r).canElim, js = (analyzer ord r).v2f v := by
  have hsort : ∀ v, ((analyzer ord r).v2f v).insertionSort (· ≤ ·) = (analyzer ord r).v2f v := fun v =>
    List.Pairwise.insertionSort_eq (by rw [v2f_eq ho]; exact (occ_sorted v r.body 0).imp fun h => Nat.le_of_lt h)
  simp only [proposals, (hs _).mem_iff, List.mem_dedup, List.mem_map, hsort]
  exact ⟨fun ⟨v, h1, h2⟩ => ⟨v, h1, h2.symm⟩, fun ⟨v, h1, h2⟩ => ⟨v, h1, h2.symm⟩⟩

/-- **C74 (proposals).**  Each set of body elements that mention some variable worth eliminating is proposed, once. -/
theorem C74_proposals {shuf : List (List Nat) → List (List Nat)} (hs : Shuffles shuf) {ord : Finset Nat → List Nat} (ho : Enum ord) (r : WRule W) :
    (proposals shuf ord r).Nodup ∧ ∀ js, js ∈ proposals shuf ord r ↔ js.Pairwise (· < ·) ∧
      ∃ v, v ∈ bodyVars r.body ∧ v ∉ vars r.head ∧ (∃ l ∈ r.body, litVars l ≠ ∅ ∧ v ∉ litVars l) ∧
        ∀ j, j ∈ js ↔ ∃ l, r.body[j]? = some l ∧ v ∈ litVars l := by
  refine ⟨(hs _).nodup_iff.2 (List.nodup_dedup _), fun js => ?_⟩
  rw [mem_proposals hs ho]
  constructor
  · rintro ⟨v, hv, rfl⟩
    obtain ⟨h1, h2, h3, -⟩ := C74_analyzer ho r v
    obtain ⟨a, b, c⟩ := h3.1 hv
    exact ⟨h1, v, a, b, c, h2⟩
  · rintro ⟨hj, v, a, b, c, h⟩
    obtain ⟨h1, h2, h3, -⟩ := C74_analyzer ho r v
    refine ⟨v, h3.2 ⟨a, b, c⟩, ?_⟩
    refine List.Perm.eq_of_pairwise (fun x y _ _ h1 h2 => absurd h1 (Nat.lt_asymm h2)) hj h1 ?_
    exact (List.perm_ext_iff_of_nodup (hj.imp fun h => Nat.ne_of_lt h) (h1.imp fun h => Nat.ne_of_lt h)).2 fun j => by rw [h, h2]

theorem hooks_spec {f : Nat} {e : Env W S'} {p : Prog W} {i : Nat} : ∀ {Fs : List (List Nat)} {c c' : Nat} {qs : List (Prog W)},
    hooks f e p i Fs c = some (qs, c') → c ≤ c' ∧ (∀ q ∈ qs, ∃ js ∈ Fs, ∃ c1, c ≤ c1 ∧ c1 < c' ∧ hook f e p c1 i js = some (q, c1 + 1)) ∧
      ∀ js ∈ Fs, ∃ q ∈ qs, ∃ c1, c ≤ c1 ∧ c1 < c' ∧ hook f e p c1 i js = some (q, c1 + 1)
  | [], c, c', qs, h => by
    simp only [hooks, Option.some.injEq, Prod.mk.injEq] at h
    obtain ⟨rfl, rfl⟩ := h
    simp
  | js :: Fs, c, c', qs, h => by
    unfold hooks at h
    split at h
    · exact absurd h (by simp)
    rename_i q c1 hh
    split at h
    · exact absurd h (by simp)
    rename_i qs1 c2 hh2
    simp only [Option.some.injEq, Prod.mk.injEq] at h
    obtain ⟨rfl, rfl⟩ := h
    obtain ⟨_, _, _, _, rfl, _⟩ := hook_inv hh
    obtain ⟨h1, h2, h3⟩ := hooks_spec hh2
    refine ⟨by omega, fun q' hq' => ?_, fun js' hjs' => ?_⟩
    · rcases List.mem_cons.1 hq' with rfl | hq'
      · exact ⟨js, by simp, c, le_refl _, by omega, hh⟩
      · obtain ⟨js', a1, c3, a2, a3, a4⟩ := h2 q' hq'
        exact ⟨js', List.mem_cons_of_mem _ a1, c3, by omega, a3, a4⟩
    · rcases List.mem_cons.1 hjs' with rfl | hjs'
      · exact ⟨q, by simp, c, le_refl _, by omega, hh⟩
      · obtain ⟨q', a1, c3, a2, a3, a4⟩ := h3 js' hjs'
        exact ⟨q', List.mem_cons_of_mem _ a1, c3, by omega, a3, a4⟩

/-- `q` is `p` after hooking, in the rule at position `i`, the factors of a variable that can be eliminated -/
def ElimAt (f : Nat) (e : Env W S') (p q : Prog W) (c i v : Nat) : Prop :=
  ∃ r, p.rules[i]? = some r ∧ v ∈ (analyzer e.ord r).canElim ∧ hook f e p c i ((analyzer e.ord r).v2f v) = some (q, c + 1)

theorem eurekasOf_spec {shuf : List (List Nat) → List (List Nat)} (hs : Shuffles shuf) {f : Nat} {e : Env W S'} (ho : Enum e.ord) {p : Prog W} :
    ∀ {rs : List (WRule W)} {i c c' : Nat} {qs : List (Prog W)}, p.rules.drop i = rs → eurekasOf f e shuf p i rs c = some (qs, c') →
    c ≤ c' ∧ (∀ q ∈ qs, ∃ j v c1, i ≤ j ∧ c ≤ c1 ∧ c1 < c' ∧ ElimAt f e p q c1 j v) ∧
      ∀ j r v, i ≤ j → p.rules[j]? = some r → v ∈ (analyzer e.ord r).canElim → ∃ q ∈ qs, ∃ c1, c ≤ c1 ∧ c1 < c' ∧ ElimAt f e p q c1 j v
  | [], i, c, c', qs, hd, h => by
    simp only [eurekasOf, Option.some.injEq, Prod.mk.injEq] at h
    obtain ⟨rfl, rfl⟩ := h
    refine ⟨le_refl _, by simp, fun j r v hj hr => ?_⟩
    have h1 := (List.getElem?_eq_some_iff.1 hr).1
    have h2 := List.drop_eq_nil_iff.1 hd
    omega
  | r :: rs, i, c, c', qs, hd, h => by
    have hri : p.rules[i]? = some r := by
      have := congrArg (fun l => l[0]?) hd
      simpa using this
    have hd' : p.rules.drop (i + 1) = rs := by
      rw [← List.drop_drop, hd]; rfl
    unfold eurekasOf at h
    split at h
    · exact absurd h (by simp)
    rename_i qs1 c1 hh
    split at h
    · exact absurd h (by simp)
    rename_i qs2 c2 hh2
    simp only [Option.some.injEq, Prod.mk.injEq] at h
    obtain ⟨rfl, rfl⟩ := h
    obtain ⟨g1, g2, g3⟩ := hooks_spec hh
    obtain ⟨h1, h2, h3⟩ := eurekasOf_spec hs ho hd' hh2
    refine ⟨by omega, fun q hq => ?_, fun j r' v hj hr' hv => ?_⟩
    · rcases List.mem_append.1 hq with hq | hq
      · obtain ⟨js, a1, c3, a2, a3, a4⟩ := g2 q hq
        obtain ⟨v, hv, rfl⟩ := (mem_proposals hs ho).1 a1
        exact ⟨i, v, c3, le_refl _, a2, by omega, r, hri, hv, a4⟩
      · obtain ⟨j, v, c3, a1, a2, a3, a4⟩ := h2 q hq
        exact ⟨j, v, c3, by omega, by omega, a3, a4⟩
    · rcases Nat.lt_or_ge i j with hlt | hge
      · obtain ⟨q, a1, c3, a2, a3, a4⟩ := h3 j r' v hlt hr' hv
        exact ⟨q, List.mem_append_right _ a1, c3, by omega, a3, a4⟩
      · obtain rfl : i = j := by omega
        obtain rfl : r = r' := by rw [hri] at hr'; exact Option.some.inj hr'
        obtain ⟨q, a1, c3, a2, a3, a4⟩ := g3 _ ((mem_proposals hs ho).2 ⟨v, hv, rfl⟩)
        exact ⟨q, List.mem_append_left _ a1, c3, a2, by omega, r, hri, hv, a4⟩

theorem eurekasLoop_spec {shuf : List (List Nat) → List (List Nat)} (hs : Shuffles shuf) {f : Nat} {e : Env W S'} (ho : Enum e.ord) :
    ∀ {ps : List (Prog W)} {c c' : Nat} {qs : List (Prog W)}, eurekasLoop f e shuf ps c = some (qs, c') →
    c ≤ c' ∧ (∀ q ∈ qs, ∃ p ∈ ps, ∃ j v c1, c ≤ c1 ∧ c1 < c' ∧ ElimAt f e p q c1 j v) ∧
      ∀ p ∈ ps, ∀ j r v, p.rules[j]? = some r → v ∈ (analyzer e.ord r).canElim → ∃ q ∈ qs, ∃ c1, c ≤ c1 ∧ c1 < c' ∧ ElimAt f e p q c1 j v
  | [], c, c', qs, h => by
    simp only [eurekasLoop, Option.some.injEq, Prod.mk.injEq] at h
    obtain ⟨rfl, rfl⟩ := h
    simp
  | p :: ps, c, c', qs, h => by
    unfold eurekasLoop at h
    split at h
    · exact absurd h (by simp)
    rename_i qs1 c1 hh
    split at h
    · exact absurd h (by simp)
    rename_i qs2 c2 hh2
    simp only [Option.some.injEq, Prod.mk.injEq] at h
    obtain ⟨rfl, rfl⟩ := h
    obtain ⟨g1, g2, g3⟩ := eurekasOf_spec hs ho (by simp) hh
    obtain ⟨h1, h2, h3⟩ := eurekasLoop_spec hs ho hh2
    refine ⟨by omega, fun q hq => ?_, fun p' hp' j r v hr hv => ?_⟩
    · rcases List.mem_append.1 hq with hq | hq
      · obtain ⟨j, v, c3, _, a2, a3, a4⟩ := g2 q hq
        exact ⟨p, by simp, j, v, c3, a2, by omega, a4⟩
      · obtain ⟨p', a0, j, v, c3, a2, a3, a4⟩ := h2 q hq
        exact ⟨p', List.mem_cons_of_mem _ a0, j, v, c3, by omega, a3, a4⟩
    · rcases List.mem_cons.1 hp' with rfl | hp'
      · obtain ⟨q, a1, c3, a2, a3, a4⟩ := g3 j r v (Nat.zero_le _) hr hv
        exact ⟨q, List.mem_append_left _ a1, c3, a2, by omega, a4⟩
      · obtain ⟨q, a1, c3, a2, a3, a4⟩ := h3 p' hp' j r v hr hv
        exact ⟨q, List.mem_append_right _ a1, c3, by omega, a3, a4⟩

/-- **C74 (`eurekas`).**  The collection keeps its programs and gets, for every rule of every program and every variable that can be
eliminated there, a program in which the factors of this variable are hooked; it gets no others.  Each program it gets keeps the solutions on
the items without the generated name and has at most the degree of the program it comes from. -/
theorem C74_eurekas {shuf : List (List Nat) → List (List Nat)} (hs : Shuffles shuf) {f : Nat} {e : Env W S'} (ho : Enum e.ord) {ps qs : List (Prog W)}
    {c c' : Nat} (hp : ∀ p ∈ ps, ∀ r ∈ p.rules, NamedRule r) (h : eurekas f e shuf ps c = some (qs, c')) :
    ps <+: qs ∧
    (∀ p ∈ ps, ∀ j r v, p.rules[j]? = some r → v ∈ (analyzer e.ord r).canElim → ∃ q ∈ qs, ∃ c1, c ≤ c1 ∧ c1 < c' ∧ ElimAt f e p q c1 j v) ∧
    ∀ q ∈ qs, q ∈ ps ∨ ∃ p ∈ ps, ∃ j v c1, c ≤ c1 ∧ c1 < c' ∧ ElimAt f e p q c1 j v ∧
      Conservative (IsFn (genName (c1 + 1))) p.rules q.rules ∧ degree e.ord q ≤ degree e.ord p := by
  unfold eurekas at h
  cases hl : eurekasLoop f e shuf ps c with
  | none => rw [hl] at h; simp at h
  | some a =>
    rw [hl] at h
    simp only [Option.map_some, Option.some.injEq, Prod.mk.injEq] at h
    obtain ⟨rfl, rfl⟩ := h
    obtain ⟨h1, h2, h3⟩ := eurekasLoop_spec hs ho (qs := a.1) (c' := a.2) hl
    refine ⟨List.prefix_append _ _, fun p hp j r v hr hv => ?_, fun q hq => ?_⟩
    · obtain ⟨q, a1, a2⟩ := h3 p hp j r v hr hv
      exact ⟨q, List.mem_append_right _ a1, a2⟩
    · rcases List.mem_append.1 hq with hq | hq
      · exact .inl hq
      · obtain ⟨p, a0, j, v, c3, a2, a3, a4⟩ := h2 q hq
        obtain ⟨r, b1, b2, b3⟩ := a4
        exact .inr ⟨p, a0, j, v, c3, a2, a3, ⟨r, b1, b2, b3⟩, Hook.C35_hook ho.lists (v2f_nodup ho r v) (hp p a0) b3,
          (C74_elimination ho b1 b2 b3).2.1⟩

theorem hooks_returns {shuf : List (List Nat) → List (List Nat)} (hsf : Shuffles shuf) {e : Env W S'} (hx : Hook.Exact e.o) (ho : Enum e.ord) (hinf : e.inf = infty) {p : Prog W}
    (hp : ∀ r ∈ p.rules, NamedRule r) (hk : ∀ r ∈ p.rules, Unfold.Below e.k r) {i : Nat} {r : WRule W} (hr : p.rules[i]? = some r) :
    ∀ (Fs : List (List Nat)) (c : Nat), (∀ js ∈ Fs, js ∈ proposals shuf e.ord r) → (∀ n, c < n → genName n ∉ syms p) →
    (∀ n, c < n → Hook.NameOK e.ops p.inputs (genName n)) → ∃ qs, Evt (fun f => hooks f e p i Fs c = some (qs, c + Fs.length))
  | [], c, _, _, _ => ⟨[], .of_all fun f => by simp [hooks]⟩
  | js :: Fs, c, hF, hs, hn => by
    obtain ⟨v, hv, rfl⟩ := (mem_proposals hsf ho).1 (hF js (by simp))
    obtain ⟨q, hq⟩ := Hook.C35_hook_returns hx ho.lists hinf (v2f_nodup ho r v) hp hk hr (v2f_lt ho) (hs _ (Nat.lt_succ_self c)) (hn _ (Nat.lt_succ_self c))
    obtain ⟨qs, hqs⟩ := hooks_returns hsf hx ho hinf hp hk hr Fs (c + 1) (fun js hjs => hF js (List.mem_cons_of_mem _ hjs))
      (fun n hn' => hs n (by omega)) (fun n hn' => hn n (by omega))
    refine ⟨q :: qs, (hq.and hqs).mono fun f hf => ?_⟩
    simp only [hooks, hf.1, hf.2, List.length_cons]
    rw [show c + 1 + Fs.length = c + (Fs.length + 1) by omega]

theorem eurekasOf_returns {shuf : List (List Nat) → List (List Nat)} (hsf : Shuffles shuf) {e : Env W S'} (hx : Hook.Exact e.o) (ho : Enum e.ord) (hinf : e.inf = infty) {p : Prog W}
    (hp : ∀ r ∈ p.rules, NamedRule r) (hk : ∀ r ∈ p.rules, Unfold.Below e.k r) :
    ∀ (rs : List (WRule W)) (i c : Nat), p.rules.drop i = rs → (∀ n, c < n → genName n ∉ syms p) →
    (∀ n, c < n → Hook.NameOK e.ops p.inputs (genName n)) → ∃ qs c', c ≤ c' ∧ Evt (fun f => eurekasOf f e shuf p i rs c = some (qs, c'))
  | [], i, c, _, _, _ => ⟨[], c, le_refl _, .of_all fun f => by simp [eurekasOf]⟩
  | r :: rs, i, c, hd, hs, hn => by
    have hri : p.rules[i]? = some r := by
      have := congrArg (fun l => l[0]?) hd
      simpa using this
    have hd' : p.rules.drop (i + 1) = rs := by
      rw [← List.drop_drop, hd]; rfl
    obtain ⟨qs, hqs⟩ := hooks_returns hsf hx ho hinf hp hk hri (proposals shuf e.ord r) c (fun _ h => h) hs hn
    obtain ⟨qs', c', hc', hqs'⟩ := eurekasOf_returns hsf hx ho hinf hp hk rs (i + 1) (c + (proposals shuf e.ord r).length) hd'
      (fun n hn' => hs n (by omega)) (fun n hn' => hn n (by omega))
    refine ⟨qs ++ qs', c', by omega, (hqs.and hqs').mono fun f hf => ?_⟩
    simp only [eurekasOf, hf.1, hf.2]

theorem eurekasLoop_returns {shuf : List (List Nat) → List (List Nat)} (hsf : Shuffles shuf) {e : Env W S'} (hx : Hook.Exact e.o) (ho : Enum e.ord) (hinf : e.inf = infty) :
    ∀ (ps : List (Prog W)) (c : Nat), (∀ p ∈ ps, ∀ r ∈ p.rules, NamedRule r) → (∀ p ∈ ps, ∀ r ∈ p.rules, Unfold.Below e.k r) →
    (∀ p ∈ ps, ∀ n, c < n → genName n ∉ syms p) → (∀ p ∈ ps, ∀ n, c < n → Hook.NameOK e.ops p.inputs (genName n)) →
    ∃ out, Evt (fun f => eurekasLoop f e shuf ps c = some out)
  | [], c, _, _, _, _ => ⟨([], c), .of_all fun f => by simp [eurekasLoop]⟩
  | p :: ps, c, hp, hk, hs, hn => by
    obtain ⟨qs, c', hc', h1⟩ := eurekasOf_returns hsf hx ho hinf (hp p (by simp)) (hk p (by simp)) p.rules 0 c (by simp) (hs p (by simp)) (hn p (by simp))
    obtain ⟨out, h2⟩ := eurekasLoop_returns hsf hx ho hinf ps c' (fun p' h => hp p' (List.mem_cons_of_mem _ h)) (fun p' h => hk p' (List.mem_cons_of_mem _ h))
      (fun p' h n hn' => hs p' (List.mem_cons_of_mem _ h) n (by omega)) (fun p' h n hn' => hn p' (List.mem_cons_of_mem _ h) n (by omega))
    refine ⟨(qs ++ out.1, out.2), (h1.and h2).mono fun f hf => ?_⟩
    simp only [eurekasLoop, hf.1, hf.2]

/-- **C74 (`eurekas` returns).**  If names generated from now on are unused, no fold is rejected and no other exception is raised. -/
theorem C74_eurekas_returns {shuf : List (List Nat) → List (List Nat)} (hsf : Shuffles shuf) {e : Env W S'} (hx : Hook.Exact e.o) (ho : Enum e.ord) (hinf : e.inf = infty)
    {ps : List (Prog W)} {c : Nat} (hp : ∀ p ∈ ps, ∀ r ∈ p.rules, NamedRule r) (hk : ∀ p ∈ ps, ∀ r ∈ p.rules, Unfold.Below e.k r)
    (hs : ∀ p ∈ ps, ∀ n, c < n → genName n ∉ syms p) (hn : ∀ p ∈ ps, ∀ n, c < n → Hook.NameOK e.ops p.inputs (genName n)) :
    ∃ qs c', Evt (fun f => eurekas f e shuf ps c = some (qs, c')) := by
  obtain ⟨out, h⟩ := eurekasLoop_returns hsf hx ho hinf ps c hp hk hs hn
  exact ⟨ps ++ out.1, out.2, h.mono fun f hf => by simp only [eurekas, hf, Option.map_some]⟩

/-! ### The search step -/

theorem drive_spec {shuf : List (List Nat) → List (List Nat)} (hsf : Shuffles shuf) {f : Nat} {e : Env W S'} (ho : Enum e.ord) {s : ESt W} :
    ∀ {rs : List (WRule W)} {i c c' : Nat} {ts : List (ESt W)}, s.program.rules.drop i = rs → (∀ t ∈ s.program.rules.take i, t ∈ s.eureka) →
    drive f e shuf s i rs c = some (ts, c') →
    ((∀ t ∈ s.program.rules, t ∈ s.eureka) ∧ ts = []) ∨
    ∃ j r, ∃ qs : List (Prog W), s.program.rules[j]? = some r ∧ r ∉ s.eureka ∧ (∀ t ∈ s.program.rules.take j, t ∈ s.eureka) ∧
      ts = ⟨s.program, r :: s.eureka⟩ :: qs.map (fun q => ⟨q, r :: s.eureka⟩) ∧
      (∀ q ∈ qs, ∃ v c1, c ≤ c1 ∧ c1 < c' ∧ ElimAt f e s.program q c1 j v) ∧
      ∀ v ∈ (analyzer e.ord r).canElim, ∃ q ∈ qs, ∃ c1, c ≤ c1 ∧ c1 < c' ∧ ElimAt f e s.program q c1 j v
  | [], i, c, c', ts, hd, ht, h => by
    simp only [drive, Option.some.injEq, Prod.mk.injEq] at h
    refine .inl ⟨fun t h' => ht t ?_, h.1.symm⟩
    rwa [List.take_of_length_le (List.drop_eq_nil_iff.1 hd)]
  | r :: rs, i, c, c', ts, hd, ht, h => by
    have hri : s.program.rules[i]? = some r := by
      have := congrArg (fun l => l[0]?) hd
      simpa using this
    have hd' : s.program.rules.drop (i + 1) = rs := by
      rw [← List.drop_drop, hd]; rfl
    unfold drive at h
    split at h
    · rename_i hr
      refine drive_spec hsf ho (i := i + 1) hd' (fun t h' => ?_) h
      rw [List.take_add_one, hri] at h'
      rcases List.mem_append.1 h' with h' | h'
      · exact ht t h'
      · simp only [Option.toList_some, List.mem_singleton] at h'
        exact h' ▸ hr
    · rename_i hr
      split at h
      · exact absurd h (by simp)
      rename_i qs c1 hh
      simp only [Option.some.injEq, Prod.mk.injEq] at h
      obtain ⟨rfl, rfl⟩ := h
      obtain ⟨g1, g2, g3⟩ := hooks_spec hh
      refine .inr ⟨i, r, qs, hri, hr, ht, rfl, fun q hq => ?_, fun v hv => ?_⟩
      · obtain ⟨js, a1, c3, a2, a3, a4⟩ := g2 q hq
        obtain ⟨v, hv, rfl⟩ := (mem_proposals hsf ho).1 a1
        exact ⟨v, c3, a2, a3, r, hri, hv, a4⟩
      · obtain ⟨q, a1, c3, a2, a3, a4⟩ := g3 _ ((mem_proposals hsf ho).2 ⟨v, hv, rfl⟩)
        exact ⟨q, a1, c3, a2, a3, r, hri, hv, a4⟩

/-- **C74 (`_drive_eureka`).**  The first rule that is not in the set `eureka` is put there; the states proposed are the one
with the same program and, for every variable of this rule that can be eliminated, one with the program in which it is.
Nothing is proposed only if all rules are in the set. -/
theorem C74_drive {shuf : List (List Nat) → List (List Nat)} (hsf : Shuffles shuf) {f : Nat} {e : Env W S'} (ho : Enum e.ord) {s : ESt W} {c c' : Nat}
    {ts : List (ESt W)} (h : drive f e shuf s 0 s.program.rules c = some (ts, c')) :
    ((∀ t ∈ s.program.rules, t ∈ s.eureka) ∧ ts = []) ∨
    ∃ j r, ∃ qs : List (Prog W), s.program.rules[j]? = some r ∧ r ∉ s.eureka ∧ (∀ t ∈ s.program.rules.take j, t ∈ s.eureka) ∧
      ts = ⟨s.program, r :: s.eureka⟩ :: qs.map (fun q => ⟨q, r :: s.eureka⟩) ∧
      (∀ q ∈ qs, ∃ v c1, c ≤ c1 ∧ c1 < c' ∧ ElimAt f e s.program q c1 j v) ∧
      ∀ v ∈ (analyzer e.ord r).canElim, ∃ q ∈ qs, ∃ c1, c ≤ c1 ∧ c1 < c' ∧ ElimAt f e s.program q c1 j v :=
  drive_spec hsf ho (by simp) (by simp) h

/-- a state and one that `_drive_eureka` proposes for it -/
def Drives (e : Env W S') (shuf : List (List Nat) → List (List Nat)) (s t : ESt W) : Prop :=
  ∃ f c ts c', drive f e shuf s 0 s.program.rules c = some (ts, c') ∧ t ∈ ts

/-- `n` steps of `_drive_eureka` -/
inductive Run (e : Env W S') (shuf : List (List Nat) → List (List Nat)) (s : ESt W) : Nat → ESt W → Prop
  | nil : Run e shuf s 0 s
  | step {n t u} : Run e shuf s n t → Drives e shuf t u → Run e shuf s (n + 1) u

/-- what is left to do in a state -/
def left (s : ESt W) : Nat := ((s.program.rules.filter fun r => decide (r ∉ s.eureka)).map load).sum

theorem sum_filter_le {α : Type} (g : α → Nat) (P Q : α → Bool) (h : ∀ a, P a = true → Q a = true) (l : List α) :
    ((l.filter P).map g).sum ≤ ((l.filter Q).map g).sum := by
  induction l with
  | nil => simp
  | cons a l ih =>
    simp only [List.filter_cons]
    by_cases hP : P a = true
    · rw [if_pos hP, if_pos (h a hP)]; simp only [List.map_cons, List.sum_cons]; omega
    · rw [if_neg hP]
      split
      · simp only [List.map_cons, List.sum_cons]; omega
      · exact ih

theorem left_eq {s : ESt W} {i : Nat} {r : WRule W} (hr : s.program.rules[i]? = some r) (hn : r ∉ s.eureka) :
    left s = load r + (((s.program.rules.eraseIdx i).filter fun r => decide (r ∉ s.eureka)).map load).sum := by
  obtain ⟨hi, hri⟩ := List.getElem?_eq_some_iff.1 hr
  have := List.getElem_cons_eraseIdx_perm hi
  rw [hri] at this
  unfold left
  rw [← ((this.filter _).map load).sum_eq, List.filter_cons, if_pos (by simpa using hn), List.map_cons, List.sum_cons]

theorem drives_left {shuf : List (List Nat) → List (List Nat)} (hsf : Shuffles shuf) {e : Env W S'} (ho : Enum e.ord) {s t : ESt W} (h : Drives e shuf s t) :
    left t < left s := by
  obtain ⟨f, c, ts, c', h, ht⟩ := h
  rcases C74_drive hsf ho h with ⟨_, rfl⟩ | ⟨j, r, qs, hr, hn, _, rfl, h2, _⟩
  · simp at ht
  have hl := left_eq hr hn
  have hpos := load_pos r
  have hmono : (((s.program.rules.eraseIdx j).filter fun t => decide (t ∉ r :: s.eureka)).map load).sum ≤
      (((s.program.rules.eraseIdx j).filter fun r => decide (r ∉ s.eureka)).map load).sum :=
    sum_filter_le load _ _ (fun a ha => by simp only [decide_eq_true_eq, List.mem_cons, not_or] at ha ⊢; exact ha.2) _
  rcases List.mem_cons.1 ht with rfl | ht
  · obtain ⟨hi, hri⟩ := List.getElem?_eq_some_iff.1 hr
    have hp := List.getElem_cons_eraseIdx_perm hi
    rw [hri] at hp
    have : left (⟨s.program, r :: s.eureka⟩ : ESt W) = (((s.program.rules.eraseIdx j).filter fun t => decide (t ∉ r :: s.eureka)).map load).sum := by
      unfold left
      show ((s.program.rules.filter fun t => decide (t ∉ r :: s.eureka)).map load).sum = _
      rw [← ((hp.filter _).map load).sum_eq, List.filter_cons, if_neg (by simp)]
    omega
  · obtain ⟨q, hq, rfl⟩ := List.mem_map.1 ht
    obtain ⟨v, c1, _, _, r', hr', hv, hh⟩ := h2 q hq
    obtain rfl : r = r' := by rw [hr] at hr'; exact Option.some.inj hr'
    obtain ⟨rev, tmp, hqr, hlt⟩ := elim_load ho hr hv hh
    have : left (⟨q, r :: s.eureka⟩ : ESt W) ≤ load rev + load tmp + (((s.program.rules.eraseIdx j).filter fun t => decide (t ∉ r :: s.eureka)).map load).sum := by
      unfold left
      show ((q.rules.filter fun t => decide (t ∉ r :: s.eureka)).map load).sum ≤ _
      rw [hqr]
      simp only [List.filter_cons, List.filter_append, List.filter_nil]
      split <;> split <;> simp only [List.map_cons, List.sum_cons, List.map_append, List.sum_append, List.map_nil, List.sum_nil] <;> omega
    omega

/-- **C74 (the search step, repeated).**  Following `_drive_eureka` alone, every run of the search is finite, with a bound computed from the
first state, and leads to a program that is reached by a chain of eliminations. -/
theorem C74_run {shuf : List (List Nat) → List (List Nat)} (hsf : Shuffles shuf) {e : Env W S'} (ho : Enum e.ord) {s t : ESt W} {n : Nat} (h : Run e shuf s n t) :
    n ≤ ((s.program.rules.filter fun r => decide (r ∉ s.eureka)).map fun r => 2 ^ ((rvars r).card + r.body.length + 1) - 1).sum ∧
    ∃ ns, Elims e s.program ns t.program := by
  have key : n + left t ≤ left s ∧ ∃ ns, Elims e s.program ns t.program := by
    induction h with
    | nil => exact ⟨by simp, [], .nil⟩
    | step h1 h2 ih =>
      rename_i n t u
      obtain ⟨ih1, ns, ih2⟩ := ih
      refine ⟨by have := drives_left hsf ho h2; omega, ?_⟩
      obtain ⟨f, c, ts, c', h, ht⟩ := h2
      rcases C74_drive hsf ho h with ⟨_, rfl⟩ | ⟨j, r, qs, hr, hn, _, rfl, h2, _⟩
      · simp at ht
      rcases List.mem_cons.1 ht with rfl | ht
      · exact ⟨ns, ih2⟩
      · obtain ⟨q, hq, rfl⟩ := List.mem_map.1 ht
        obtain ⟨v, c1, _, _, r', hr', hv, hh⟩ := h2 q hq
        exact ⟨_, ih2.step ⟨f, j, r', v, hr', hv, hh⟩⟩
  exact ⟨by have := key.1; unfold left load at this; omega, key.2⟩

end

/-! ### Examples -/
section Examples
open Unfold (at' ltOps)
open Hook (hookP hookE hookE_exact hookP_named genName_ne genName_modelled propE)

/-- sets of variables in increasing order -/
def inc (s : Finset Nat) : List Nat := (List.range (s.sup id + 1)).filter fun n => decide (n ∈ s)

theorem inc_enum : Enum inc := fun s => ⟨List.nodup_range.filter _, by
  ext n
  simp only [inc, List.mem_toFinset, List.mem_filter, List.mem_range, decide_eq_true_eq, and_iff_right_iff_imp]
  exact fun h => Nat.lt_succ_of_le (Finset.le_sup (f := id) h)⟩

/-- the environment of the examples -/
noncomputable def incE : Env TV Unit := { hookE with ord := inc }

/-- `goal(X) += e(X,Y) * g(Y,Z) * h(Z)`: `Y` occurs in the first two factors, `Z` in the last two; both can be eliminated -/
example : (hookP.rules.map fun r => ((analyzer inc r).v2f 1, (analyzer inc r).v2f 2, (analyzer inc r).canElim, (analyzer inc r).degree)) =
    [([0, 1], [1, 2], [1, 2], 3)] ∧ degree inc hookP = 3 := by decide +kernel

/-- two variables with the same occurrences make one proposal: `goal += f(X,Y) * g(X,Y) * h(Z)` -/
example : proposals id inc (⟨at' "goal" [], [.sub (at' "f" [.var 0, .var 1]), .sub (at' "g" [.var 0, .var 1]), .sub (at' "h" [.var 2])]⟩ : WRule TV) =
    [[0, 1], [2]] := by decide +kernel

example : degrees inc (⟨hookP.rules ++ [⟨at' "a" [], [.sub (at' "f" [.var 0])]⟩] ++ hookP.rules, []⟩ : Prog TV) = [3, 3, 1] ∧
    tupLt [3, 2, 2] [3, 3] = true ∧ tupLt [3, 3] [3, 3, 1] = true := by decide +kernel

theorem gen_syms (n : Nat) : genName n ∉ syms hookP := fun hc => by
  have : syms hookP = [.str "goal", .str "e", .str "g", .str "h"] := by decide
  rw [this] at hc
  simp only [List.mem_cons, List.not_mem_nil, or_false] at hc
  rcases hc with h | h | h | h <;> exact genName_ne (by decide) h

theorem gen_ok (n : Nat) : Hook.NameOK incE.ops hookP.inputs (genName n) := ⟨by
  have : genName n ≠ .str "<" := genName_ne (by decide)
  simp [incE, hookE, ltOps, this], genName_ne (by decide), genName_modelled n, fun t ht => by
  simp only [hookP, List.mem_singleton] at ht
  subst ht
  exact avoids_of_ne ⟨_, _, rfl⟩ fun h => genName_ne (n := n) (s := "e") (by decide) (Option.some.inj h).symm⟩

/-- `eurekas` returns on it, with an elimination of `Z` that lowers the cost -/
example : ∃ qs c', Evt (fun f => eurekas f incE id [hookP] 0 = some (qs, c')) ∧ ∃ q ∈ qs, ∃ c1,
    Conservative (IsFn (genName (c1 + 1))) hookP.rules q.rules ∧ degree inc q ≤ 3 ∧ tupLt (degrees inc q) (degrees inc hookP) = true := by
  have hE : Enum incE.ord := inc_enum
  obtain ⟨qs, c', h⟩ := C74_eurekas_returns (shuf := id) (fun l => .refl l) (e := incE) (ps := [hookP]) (c := 0) hookE_exact hE rfl
    (by simpa using hookP_named)
    (by intro p hp r hr n hn; simp only [List.mem_singleton] at hp; subst hp; simp only [hookP, List.mem_singleton] at hr; subst hr; revert n; decide)
    (by intro p hp n _; simp only [List.mem_singleton] at hp; subst hp; exact gen_syms n)
    (by intro p hp n _; simp only [List.mem_singleton] at hp; subst hp; exact gen_ok n)
  refine ⟨qs, c', h, ?_⟩
  obtain ⟨f, hf⟩ := h
  have h1 := C74_eurekas (shuf := id) (fun l => .refl l) hE (by simpa using hookP_named) (hf f (le_refl _))
  obtain ⟨q, hq, c1, _, _, r, hr, hv, hh⟩ := h1.2.1 hookP (by simp) 0 _ 2 rfl (by
    show 2 ∈ (analyzer inc _).canElim
    decide +kernel)
  obtain rfl : r = _ := (Option.some.inj hr).symm
  have h2 := C74_elimination hE hr hv hh
  have h3 : degree inc hookP = 3 := by decide +kernel
  refine ⟨q, hq, c1, Hook.C35_hook hE.lists (v2f_nodup hE _ _) hookP_named hh, h3 ▸ h2.2.1, h2.2.2.2 ⟨0, ?_, ?_⟩⟩
  · decide +kernel
  · decide +kernel

/-- `a += f(X,Y) * g(X)` -/
def coverR : WRule TV := ⟨at' "a" [], [.sub (at' "f" [.var 0, .var 1]), .sub (at' "g" [.var 0])]⟩

/-- **C74 (the comment).**  The comment at rule.py:249-252 says that no variable can be eliminated if some factor contains all local variables.
The code does not implement this: here the first factor contains both, yet `Y` counts as one that can be eliminated.  Eliminating it
gives `a += $gen1(X) * g(X)` and `$gen1(X) += f(X,Y)`, which costs more. -/
theorem C74_comment_differs : (∃ l ∈ coverR.body, (analyzer inc coverR).localVars ⊆ litVars l) ∧ (analyzer inc coverR).canElim = [1] ∧
    ∃ q, Evt (fun f => hook f incE ⟨[coverR], []⟩ 0 0 ((analyzer inc coverR).v2f 1) = some (q, 1)) ∧
      q.rules = [⟨at' "a" [], [.sub (at' "$gen1" [.var 0]), .sub (at' "g" [.var 0])]⟩, ⟨at' "$gen1" [.var 0], [.sub (at' "f" [.var 0, .var 1])]⟩] ∧
      degrees inc q = [2, 1] ∧ degrees inc ⟨[coverR], []⟩ = [2] := by
  refine ⟨by decide +kernel, by decide +kernel, ?_⟩
  have hn : ∀ r ∈ [coverR], NamedRule r := by
    intro r hr
    simp only [List.mem_singleton] at hr
    subst hr
    refine ⟨⟨_, _, rfl⟩, fun t ht => ?_⟩
    simp only [coverR, List.mem_cons, Lit.sub.injEq, List.not_mem_nil, or_false] at ht
    rcases ht with rfl | rfl <;> exact ⟨_, _, rfl⟩
  obtain ⟨q, hq⟩ := Hook.C35_hook_returns (e := incE) (p := ⟨[coverR], []⟩) (c := 0) (i := 0) (r := coverR) hookE_exact inc_enum.lists rfl
    (v2f_nodup inc_enum coverR 1) hn
    (by intro r hr n hn; simp only [List.mem_singleton] at hr; subst hr; revert n; decide) rfl (v2f_lt inc_enum) (by decide +kernel)
    ⟨by
      have : genName 1 ≠ .str "<" := genName_ne (by decide)
      simp [incE, hookE, ltOps, this], genName_ne (by decide), genName_modelled 1, by simp⟩
  refine ⟨q, hq, ?_⟩
  obtain ⟨f, hf⟩ := hq
  obtain ⟨r, hr, _, _, _, rfl⟩ := hook_inv (hf f (le_refl _))
  obtain rfl : r = coverR := (Option.some.inj hr).symm
  show (Fold.fold (Hook.define (⟨[coverR], []⟩ : Prog TV) [absorb inc coverR _ (genName 1)]) (revRule coverR (absorb inc coverR _ (genName 1)) _) {0}).rules = _ ∧
    degrees inc (Fold.fold (Hook.define (⟨[coverR], []⟩ : Prog TV) [absorb inc coverR _ (genName 1)]) (revRule coverR (absorb inc coverR _ (genName 1)) _) {0}) = _ ∧ _
  decide +kernel

/-- `X` cannot be eliminated: it is in every factor -/
example : rvars (absorb inc coverR ((analyzer inc coverR).v2f 0) (.str "n")) = bodyVars coverR.body :=
  C74_useless inc_enum (by decide) (by decide) (by decide +kernel) _

end Examples
end Degree
end Verif
