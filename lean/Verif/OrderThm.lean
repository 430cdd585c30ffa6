/-
Property C10: the term order is a strict order, total where names tell variables apart.
-/
import Verif.Order
import Mathlib.Data.List.Sort

set_option linter.unusedSectionVars false
set_option linter.unusedSimpArgs false

namespace Verif
open Tm
namespace Order

variable {name : Nat → String}

/-- every compound term has a functor slot (the Python constructor is always called with one) -/
inductive Proper : Tm → Prop
  | var (n) : Proper (.var n)
  | con (c) : Proper (.con c)
  | app (a as) : Proper a → (∀ t ∈ as, Proper t) → Proper (.app (a :: as))

/-- moreover the functor is a constant -/
inductive Named : Tm → Prop
  | var (n) : Named (.var n)
  | con (c) : Named (.con c)
  | app (c as) : (∀ t ∈ as, Named t) → Named (.app (.con c :: as))

theorem Named.proper {t : Tm} (h : Named t) : Proper t := by
  induction h with
  | var n => exact .var n
  | con c => exact .con c
  | app c as _ ih => exact .app _ _ (.con c) ih

theorem constlt_irrefl (a : Const) : a.lt a = false := by
  cases a with
  | int a => simp [Const.lt]
  | str a => exact decide_eq_false (lt_irrefl a)
theorem constlt_trans {a b c : Const} (h1 : a.lt b = true) (h2 : b.lt c = true) : a.lt c = true := by
  cases a with
  | int a =>
    cases b with
    | int b => cases c with
      | int c => simp only [Const.lt, decide_eq_true_eq] at *; omega
      | str c => rfl
    | str b => cases c with
      | int c => simp [Const.lt] at h2
      | str c => rfl
  | str a =>
    cases b with
    | int b => simp [Const.lt] at h1
    | str b => cases c with
      | int c => simp [Const.lt] at h2
      | str c => exact decide_eq_true (lt_trans (of_decide_eq_true h1) (of_decide_eq_true h2))
theorem constlt_total {a b : Const} (h : a ≠ b) : a.lt b = !b.lt a := by
  cases a with
  | int a => cases b with
    | int b =>
      have hab : a ≠ b := by rintro rfl; exact h rfl
      rw [Bool.eq_iff_iff]; simp only [Const.lt, Bool.not_eq_true', decide_eq_true_eq, decide_eq_false_iff_not]; omega
    | str b => rfl
  | str a => cases b with
    | int b => rfl
    | str b =>
      have hab : a ≠ b := by rintro rfl; exact h rfl
      change decide (a < b) = !decide (b < a)
      rcases lt_or_gt_of_ne hab with h1 | h1
      · rw [decide_eq_true h1, decide_eq_false (lt_asymm h1)]; rfl
      · rw [decide_eq_true h1, decide_eq_false (lt_asymm h1)]; rfl

theorem tlt_self (x : Tm) : tlt name x x = false := by rw [tlt.eq_def]; simp
theorem tltL_self : ∀ as : List Tm, tltL name as as = false
  | [] => by rw [tltL]
  | a :: as => by rw [tltL]; simp [tltL_self as]
theorem tlt_var_var (n m : Nat) : tlt name (.var n) (.var m) = decide (name n < name m) := by
  rw [tlt.eq_def]
  by_cases h : n = m
  · subst h; simp
  · simp [h]
theorem tlt_var_con (n c) : tlt name (.var n) (.con c) = false := by rw [tlt.eq_def]; simp
theorem tlt_var_app (n as) : tlt name (.var n) (.app as) = false := by rw [tlt.eq_def]; simp
theorem tlt_con_var (c n) : tlt name (.con c) (.var n) = true := by rw [tlt.eq_def]; simp
theorem tlt_con_con (a b) : tlt name (.con a) (.con b) = a.lt b := by
  rw [tlt.eq_def]
  by_cases h : a = b
  · subst h; simp [constlt_irrefl]
  · simp [h]
theorem tlt_app_app (as bs) : tlt name (.app as) (.app bs) = tltL name as bs := by
  rw [tlt.eq_def]
  by_cases h : as = bs
  · subst h; simp [tltL_self]
  · simp [h]
theorem tlt_app_con (a as c) : tlt name (.app (a :: as)) (.con c) = tlt name a (.con c) := by
  conv_lhs => rw [tlt.eq_def]
  simp
theorem tlt_app_var (a as n) : tlt name (.app (a :: as)) (.var n) = tlt name a (.var n) := by
  conv_lhs => rw [tlt.eq_def]
  simp
theorem tlt_con_app (c b bs) : tlt name (.con c) (.app (b :: bs)) = !tlt name b (.con c) := by
  conv_lhs => rw [tlt.eq_def]
  simp

/-- a constant is comparable with everything else -/
theorem con_total {t : Tm} (ht : Proper t) (c : Const) (h : t ≠ .con c) :
    tlt name (.con c) t = !tlt name t (.con c) := by
  cases ht with
  | var n => rw [tlt_con_var, tlt_var_con]; rfl
  | con d => rw [tlt_con_con, tlt_con_con]; exact constlt_total (by rintro rfl; exact h rfl)
  | app a as _ _ => rw [tlt_con_app, tlt_app_con]

theorem proper_tail {a : Tm} {as : List Tm} (h : Proper (.app (a :: as))) : Proper a ∧ ∀ t ∈ as, Proper t := by
  cases h with
  | app _ _ h1 h2 => exact ⟨h1, h2⟩

theorem lex_trans {N : Nat} (ih : ∀ x y z : Tm, Proper x → Proper y → Proper z → size x + size y + size z < N →
      tlt name x y = true → tlt name y z = true → tlt name x z = true) :
    ∀ as bs cs : List Tm, (∀ t ∈ as, Proper t) → (∀ t ∈ bs, Proper t) → (∀ t ∈ cs, Proper t) →
      sizeL as + sizeL bs + sizeL cs ≤ N →
      tltL name as bs = true → tltL name bs cs = true → tltL name as cs = true := by
  intro as
  induction as with
  | nil =>
    intro bs cs _ _ _ _ h1 h2
    cases bs with
    | nil => simp [tltL] at h1
    | cons b bs => cases cs with
      | nil => simp [tltL] at h2
      | cons c cs => simp [tltL]
  | cons a as iha =>
    intro bs cs pa pb pc hN h1 h2
    cases bs with
    | nil => simp [tltL] at h1
    | cons b bs =>
      cases cs with
      | nil => simp [tltL] at h2
      | cons c cs =>
        simp only [sizeL_cons] at hN
        rw [tltL] at h1 h2 ⊢
        by_cases hab : a = b
        · subst hab
          by_cases hbc : a = c
          · subst hbc
            simp only [if_true] at h1 h2 ⊢
            exact iha bs cs (fun t ht => pa t (by simp [ht])) (fun t ht => pb t (by simp [ht]))
              (fun t ht => pc t (by simp [ht])) (by have := size_pos a; omega) h1 h2
          · simp only [hbc, if_false] at h2 ⊢; exact h2
        · simp only [hab, if_false] at h1
          by_cases hbc : b = c
          · subst hbc; simp only [hab, if_false]; exact h1
          · simp only [hbc, if_false] at h2
            have := ih a b c (pa a (by simp)) (pb b (by simp)) (pc c (by simp)) (by omega) h1 h2
            have hac : a ≠ c := by
              rintro rfl
              rw [tlt_self] at this; simp at this
            simp only [hac, if_false]; exact this

theorem tlt_trans_aux : ∀ N, ∀ x y z : Tm, Proper x → Proper y → Proper z → size x + size y + size z < N →
    tlt name x y = true → tlt name y z = true → tlt name x z = true := by
  intro N
  induction N with
  | zero => intro x y z _ _ _ h; omega
  | succ N ih =>
    intro x y z px py pz hN h1 h2
    cases px with
    | var n =>
      cases py with
      | var m =>
        cases pz with
        | var k =>
          rw [tlt_var_var, decide_eq_true_eq] at *; exact lt_trans h1 h2
        | con d => rw [tlt_var_con] at h2; simp at h2
        | app e es => rw [tlt_var_app] at h2; simp at h2
      | con d => rw [tlt_var_con] at h1; simp at h1
      | app e es => rw [tlt_var_app] at h1; simp at h1
    | con c =>
      cases pz with
      | var k => exact tlt_con_var c k
      | con d =>
        cases py with
        | var m => rw [tlt_var_con] at h2; simp at h2
        | con c' => rw [tlt_con_con] at *; exact constlt_trans h1 h2
        | app b bs pb pbs =>
          rw [tlt_con_app, Bool.not_eq_true'] at h1
          rw [tlt_app_con] at h2
          simp only [size_app, sizeL_cons] at hN
          by_cases hbc : b = .con c
          · subst hbc; exact h2
          · have h3 : tlt name (.con c) b = true := by rw [con_total pb c hbc, h1]; rfl
            exact ih _ b _ (.con c) pb (.con d) (by omega) h3 h2
      | app e es pe pes =>
        rw [tlt_con_app, Bool.not_eq_true']
        by_contra hne
        rw [Bool.not_eq_false] at hne
        simp only [size_app, sizeL_cons] at hN
        cases py with
        | var m => rw [tlt_var_app] at h2; simp at h2
        | con d =>
          rw [tlt_con_app, Bool.not_eq_true'] at h2
          have := ih e (.con c) (.con d) pe (.con c) (.con d) (by omega) hne h1
          rw [this] at h2; simp at h2
        | app b bs pb pbs =>
          rw [tlt_con_app, Bool.not_eq_true'] at h1
          rw [tlt_app_app, tltL] at h2
          simp only [size_app, sizeL_cons] at hN
          by_cases hbe : b = e
          · subst hbe; rw [hne] at h1; simp at h1
          · simp only [hbe, if_false] at h2
            have := ih b e (.con c) pb pe (.con c) (by simp only [size]at hN ⊢; omega) h2 hne
            rw [this] at h1; simp at h1
    | app a as pa pas =>
      simp only [size_app, sizeL_cons] at hN
      cases pz with
      | var k =>
        rw [tlt_app_var]
        cases py with
        | var m => rw [tlt_app_var] at h1; exact ih a _ _ pa (.var m) (.var k) (by omega) h1 h2
        | con c => rw [tlt_app_con] at h1; exact ih a _ _ pa (.con c) (.var k) (by omega) h1 h2
        | app b bs pb pbs =>
          rw [tlt_app_var] at h2
          rw [tlt_app_app, tltL] at h1
          simp only [size_app, sizeL_cons] at hN
          by_cases hab : a = b
          · subst hab; exact h2
          · simp only [hab, if_false] at h1
            exact ih a b _ pa pb (.var k) (by omega) h1 h2
      | con d =>
        rw [tlt_app_con]
        cases py with
        | var m => rw [tlt_var_con] at h2; simp at h2
        | con c => rw [tlt_app_con] at h1; exact ih a _ _ pa (.con c) (.con d) (by omega) h1 h2
        | app b bs pb pbs =>
          rw [tlt_app_con] at h2
          rw [tlt_app_app, tltL] at h1
          simp only [size_app, sizeL_cons] at hN
          by_cases hab : a = b
          · subst hab; exact h2
          · simp only [hab, if_false] at h1
            exact ih a b _ pa pb (.con d) (by omega) h1 h2
      | app e es pe pes =>
        simp only [size_app, sizeL_cons] at hN
        cases py with
        | var m => rw [tlt_var_app] at h2; simp at h2
        | con c =>
          rw [tlt_app_con] at h1
          rw [tlt_con_app, Bool.not_eq_true'] at h2
          have hae : a ≠ e := by rintro rfl; rw [h1] at h2; simp at h2
          rw [tlt_app_app, tltL]
          simp only [hae, if_false]
          by_cases hec : e = .con c
          · subst hec; exact h1
          · have h3 : tlt name (.con c) e = true := by rw [con_total pe c hec, h2]; rfl
            exact ih a _ e pa (.con c) pe (by simp only [size] at hN ⊢; omega) h1 h3
        | app b bs pb pbs =>
          rw [tlt_app_app] at *
          simp only [size_app, sizeL_cons] at hN
          refine lex_trans (N := N) ih _ _ _ ?_ ?_ ?_ (by simp only [sizeL_cons]; omega) h1 h2
          · intro t ht; rcases List.mem_cons.1 ht with rfl | ht; exacts [pa, pas t ht]
          · intro t ht; rcases List.mem_cons.1 ht with rfl | ht; exacts [pb, pbs t ht]
          · intro t ht; rcases List.mem_cons.1 ht with rfl | ht; exacts [pe, pes t ht]

theorem lex_total : ∀ as bs : List Tm,
    (∀ a ∈ as, ∀ b ∈ bs, a ≠ b → tlt name a b = true ∨ tlt name b a = true) → as ≠ bs →
    tltL name as bs = true ∨ tltL name bs as = true := by
  intro as
  induction as with
  | nil => intro bs _ h; cases bs with
    | nil => exact absurd rfl h
    | cons b bs => left; simp [tltL]
  | cons a as ih =>
    intro bs hel h
    cases bs with
    | nil => right; simp [tltL]
    | cons b bs =>
      rw [tltL, tltL]
      by_cases hab : a = b
      · subst hab
        simp only [if_true]
        exact ih bs (fun p hp q hq => hel p (by simp [hp]) q (by simp [hq])) (by rintro rfl; exact h rfl)
      · simp only [hab, Ne.symm hab, if_false]
        exact hel a (by simp) b (by simp) hab

/-! ### Property C10 -/

/-- `lt` is irreflexive. -/
theorem C10_irrefl (x : Tm) : tlt name x x = false := tlt_self x

/-- `lt` is transitive on all terms, variables (even equally named ones) included. -/
theorem C10_trans {x y z : Tm} (px : Proper x) (py : Proper y) (pz : Proper z)
    (h1 : tlt name x y = true) (h2 : tlt name y z = true) : tlt name x z = true :=
  tlt_trans_aux _ x y z px py pz (Nat.lt_succ_self _) h1 h2

theorem C10_asymm {x y : Tm} (px : Proper x) (py : Proper y) (h : tlt name x y = true) :
    tlt name y x = false := by
  by_contra hc
  rw [Bool.not_eq_false] at hc
  have := C10_trans px py px h hc
  rw [tlt_self] at this; simp at this

/-- `lt` is total on terms whose variables are told apart by their names (in particular on ground terms). -/
theorem C10_total (x : Tm) (px : Named x) : ∀ y : Tm, Named y →
    (∀ n ∈ vars x, ∀ m ∈ vars y, name n = name m → n = m) → x ≠ y →
    tlt name x y = true ∨ tlt name y x = true := by
  induction px with
  | var n =>
    intro y py hv hne
    cases py with
    | var m =>
      rw [tlt_var_var, tlt_var_var, decide_eq_true_eq, decide_eq_true_eq]
      refine lt_or_gt_of_ne fun e => hne ?_
      rw [hv n (by simp) m (by simp) e]
    | con c => exact .inr (tlt_con_var c n)
    | app c as _ => right; rw [tlt_app_var, tlt_con_var]
  | con c =>
    intro y py hv hne
    rw [con_total py.proper c (Ne.symm hne)]
    cases tlt name y (.con c) <;> simp
  | app c as _ ih =>
    intro y py hv hne
    cases py with
    | var m => left; rw [tlt_app_var, tlt_con_var]
    | con d =>
      rw [con_total (Named.app c as ‹_›).proper d hne]
      cases tlt name (.app (.con c :: as)) (.con d) <;> simp
    | app d bs hb =>
      rw [tlt_app_app, tlt_app_app]
      refine lex_total _ _ ?_ (by rintro h; exact hne (by rw [h]))
      intro p hp q hq hpq
      rcases List.mem_cons.1 hp with rfl | hp
      · rw [con_total (t := q) ?_ c (Ne.symm hpq)]
        · cases tlt name q (.con c) <;> simp
        · rcases List.mem_cons.1 hq with rfl | hq
          · exact .con d
          · exact (hb q hq).proper
      · have hqN : Named q := by
          rcases List.mem_cons.1 hq with rfl | hq
          · exact .con d
          · exact hb q hq
        refine ih p hp q hqN ?_ hpq
        intro n hn m hm e
        refine hv n ?_ m ?_ e
        · simp only [vars_app, varsL_cons, vars_con, Finset.empty_union, mem_varsL]; exact ⟨p, hp, hn⟩
        · rcases List.mem_cons.1 hq with rfl | hq
          · simp at hm
          · simp only [vars_app, varsL_cons, vars_con, Finset.empty_union, mem_varsL]; exact ⟨q, hq, hm⟩

/-- Hence sorting is canonical: two sorted listings of the same ground terms (as multisets) are equal,
whatever order they started in. -/
theorem C10_sorted_unique {l1 l2 : List Tm} (hg : ∀ t ∈ l1, Named t ∧ Ground t) (hp : l1.Perm l2)
    (h1 : l1.Pairwise (fun a b => tlt name b a = false)) (h2 : l2.Pairwise (fun a b => tlt name b a = false)) :
    l1 = l2 := by
  refine List.Perm.eq_of_pairwise (le := fun a b => tlt name b a = false) ?_ h1 h2 hp
  intro a b ha hb hab hba
  by_contra hne
  have hb' := hp.mem_iff.2 hb
  rcases C10_total (name := name) a (hg a ha).1 b (hg b hb').1 (fun n hn => by
    have := (hg a ha).2; unfold Ground at this; simp [this] at hn) hne with h | h
  · rw [h] at hba; simp at hba
  · rw [h] at hab; simp at hab

/-- Two different variables with the same name are incomparable, so a listing that contains both is not
determined by the order. -/
theorem C10_same_name : ∃ (name : Nat → String) (x y : Tm), x ≠ y ∧ tlt name x y = false ∧ tlt name y x = false :=
  ⟨fun _ => "X", .var 0, .var 1, by simp, by simp [tlt_var_var], by simp [tlt_var_var]⟩

section Examples
private def g (c : String) (as : List Tm) : Tm := .app (.con (.str c) :: as)
-- f(1) < f(1,2) < f(X) , "f" < f(1), 3 < "a"
example : tlt (fun n => toString n) (g "f" [.con (.int 1)]) (g "f" [.con (.int 1), .con (.int 2)]) = true := by
  simp [g, tlt_app_app, tltL]
example : tlt (fun n => toString n) (g "f" [.con (.int 1), .con (.int 2)]) (g "f" [.var 0]) = true := by
  simp [g, tlt_app_app, tltL, tlt_con_var]
example : tlt (fun n => toString n) (.con (.str "f")) (g "f" [.con (.int 1)]) = true := by
  simp [g, tlt_con_app, tlt_self]
example : Named (g "f" [.con (.int 1), .con (.int 2)]) := .app _ _ (by
  intro t ht; simp at ht; rcases ht with rfl | rfl <;> exact .con _)
end Examples

end Order
end Verif
