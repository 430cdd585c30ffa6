/-
Property C43: the arithmetic builtins of `/repo/dyna/builtin.py` (model in `Verif/Builtin.lean`).
-/
import Verif.Builtin
import Mathlib.Algebra.Order.Floor.Ring
import Mathlib.Tactic.NormNum

set_option linter.unusedSectionVars false
set_option linter.unusedSimpArgs false

namespace Verif
namespace Builtin

/-! ### Specification

A *solution* of a query is an assignment `ρ` of values to its variables; the query asks for the
assignments satisfying a relation between numbers (strings, booleans).  An answer (a list of bindings)
stands for all assignments that respect its bindings up to Python's `==`. -/

/-- The value of an argument under an assignment. -/
def ev (ρ : Nat → Val) : Arg → Val
  | .var n => ρ n
  | .val v => v

/-- The assignment respects every binding of the answer. -/
def Holds (ρ : Nat → Val) (e : Ans) : Prop := ∀ b ∈ e, pyeq (ρ b.1) (ev ρ b.2) = true

instance (ρ : Nat → Val) (e : Ans) : Decidable (Holds ρ e) := by unfold Holds; infer_instance

/-- How many of the answers an assignment respects. -/
def cnt (ρ : Nat → Val) (l : List Ans) : Nat := l.countP fun e => decide (Holds ρ e)

/-- Exactly once when the statement holds, and never otherwise. -/
def Exactly (n : Nat) (P : Prop) : Prop := (P → n = 1) ∧ (¬ P → n = 0)

/-- What `X is Y op Z` asks of three numbers. -/
def Rel : Fn → ℚ → ℚ → ℚ → Prop
  | .add, x, y, z => x = y + z
  | .sub, x, y, z => x = y - z
  | .mul, x, y, z => x = y * z
  | .div, x, y, z => z ≠ 0 ∧ x = y / z
  | .min, x, y, z => (x = y ∧ y ≤ z) ∨ (x = z ∧ z ≤ y)
  | .max, x, y, z => (x = y ∧ z ≤ y) ∨ (x = z ∧ y ≤ z)
  | .lt, x, y, z => (x = 1 ∧ y < z) ∨ (x = 0 ∧ ¬ y < z)
  | .gt, x, y, z => (x = 1 ∧ z < y) ∨ (x = 0 ∧ ¬ z < y)
  | .le, x, y, z => (x = 1 ∧ y ≤ z) ∨ (x = 0 ∧ ¬ y ≤ z)
  | .ge, x, y, z => (x = 1 ∧ z ≤ y) ∨ (x = 0 ∧ ¬ z ≤ y)
  | .eq, x, y, z => (x = 1 ∧ y = z) ∨ (x = 0 ∧ y ≠ z)
  | .ne, x, y, z => (x = 1 ∧ y ≠ z) ∨ (x = 0 ∧ y = z)
  | _, _, _, _ => False

/-- What `X is op Y` asks of two numbers. -/
def RelU : Fn → ℚ → ℚ → Prop
  | .sub, x, y => x = -y
  | .add, x, y => x = y
  | .abs, x, y => (x = y ∧ 0 ≤ y) ∨ (x = -y ∧ y ≤ 0)
  | _, _, _ => False

/-! ### Unification -/

theorem pyeq_iff_num {a b : Val} {x y : ℚ} (ha : num? a = some x) (hb : num? b = some y) :
    pyeq a b = true ↔ x = y := by simp [pyeq, ha, hb]

theorem pyeq_none {a b : Val} (ha : num? a = none) (hb : num? b = none) :
    pyeq a b = true ↔ a = b := by simp [pyeq, ha, hb]

theorem pyeq_mixed {a b : Val} {x : ℚ} (ha : num? a = some x) (hb : num? b = none) :
    pyeq a b = false := by simp [pyeq, ha, hb]

theorem pyeq_refl (a : Val) : pyeq a a = true := by
  cases h : num? a with
  | none => exact (pyeq_none h h).2 rfl
  | some x => exact (pyeq_iff_num h h).2 rfl

theorem pyeq_symm {a b : Val} (h : pyeq a b = true) : pyeq b a = true := by
  unfold pyeq at *
  cases ha : num? a <;> cases hb : num? b <;> simp_all

theorem pyeq_trans {a b c : Val} (h : pyeq a b = true) (h' : pyeq b c = true) :
    pyeq a c = true := by
  unfold pyeq at *
  cases ha : num? a <;> cases hb : num? b <;> cases hc : num? c <;> simp_all

theorem pyeq_comm (a b : Val) : pyeq a b = pyeq b a := by
  rw [Bool.eq_iff_iff]; exact ⟨pyeq_symm, pyeq_symm⟩

theorem pyeq_congr {a b c : Val} (h : pyeq a b = true) : pyeq a c = pyeq b c := by
  rw [Bool.eq_iff_iff]
  exact ⟨fun h' => pyeq_trans (pyeq_symm h) h', fun h' => pyeq_trans h h'⟩

theorem walk_ev {ρ : Nat → Val} : ∀ {e : Ans} (a : Arg), Holds ρ e →
    pyeq (ev ρ (walk e a)) (ev ρ a) = true
  | [], a, _ => pyeq_refl _
  | (n, b) :: e, a, h => by
    have h2 : Holds ρ e := fun x hx => h x (List.mem_cons_of_mem _ hx)
    have h1 := h (n, b) List.mem_cons_self
    simp only [walk]
    by_cases ha : a = .var n
    · rw [if_pos ha]
      exact pyeq_trans (walk_ev b h2) (by rw [ha]; exact pyeq_symm h1)
    · rw [if_neg ha]; exact walk_ev a h2

theorem holds_snoc {ρ : Nat → Val} {e : Ans} {n : Nat} {b : Arg} :
    Holds ρ (e ++ [(n, b)]) ↔ Holds ρ e ∧ pyeq (ρ n) (ev ρ b) = true := by
  simp [Holds, or_imp, forall_and]

/-- `unify` adds exactly the equation it was asked for. -/
theorem unify_cnt (ρ : Nat → Val) (e : Ans) (a b : Arg) :
    cnt ρ (unify e a b).toList
      = if Holds ρ e ∧ pyeq (ev ρ a) (ev ρ b) = true then 1 else 0 := by
  by_cases he : Holds ρ e
  · have ha := walk_ev a he
    have hb := walk_ev b he
    have key : pyeq (ev ρ a) (ev ρ b) = pyeq (ev ρ (walk e a)) (ev ρ (walk e b)) := by
      rw [pyeq_congr ha, pyeq_comm, pyeq_comm (ev ρ a), pyeq_congr hb]
    rw [key]
    unfold unify
    generalize walk e a = a'
    generalize walk e b = b'
    cases a' with
    | val v =>
      cases b' with
      | val w => by_cases hv : pyeq v w = true <;> simp [cnt, he, hv, ev]
      | var m =>
        have : Holds ρ (e ++ [(m, Arg.val v)]) ↔ pyeq v (ρ m) = true := by
          rw [holds_snoc, pyeq_comm]; simp [he, ev]
        simp [cnt, he, ev, this, List.countP_cons]
    | var n =>
      cases b' with
      | val w =>
        have : Holds ρ (e ++ [(n, Arg.val w)]) ↔ pyeq (ρ n) w = true := by
          rw [holds_snoc]; simp [he, ev]
        simp [cnt, he, ev, this, List.countP_cons]
      | var m =>
        by_cases hm : m = n
        · subst hm; simp [cnt, he, ev, pyeq_refl]
        · have : Holds ρ (e ++ [(n, Arg.var m)]) ↔ pyeq (ρ n) (ρ m) = true := by
            rw [holds_snoc]; simp [he, ev]
          simp [cnt, he, ev, this, List.countP_cons, hm]
  · have hne : ∀ n b, ¬ Holds ρ (e ++ [(n, b)]) := fun n b h => he (holds_snoc.1 h).1
    unfold unify
    generalize walk e a = a'
    generalize walk e b = b'
    rw [if_neg (fun h => he h.1)]
    cases a' with
    | val v =>
      cases b' with
      | val w => by_cases hv : pyeq v w = true <;> simp [cnt, he, hv]
      | var m => simp [cnt, he, hne]
    | var n =>
      cases b' with
      | val w => simp [cnt, he, hne]
      | var m => by_cases hm : m = n <;> simp [cnt, he, hne, hm]

theorem u_cnt (ρ : Nat → Val) {a b : Arg} {l : List Ans} (h : u a b = .ans l) :
    cnt ρ l = if pyeq (ev ρ a) (ev ρ b) = true then 1 else 0 := by
  simp only [u, Out.ans.injEq] at h
  subst h
  rw [unify_cnt]
  simp [Holds]

theorem u_exact {ρ : Nat → Val} {a b : Arg} {l : List Ans} (h : u a b = .ans l) {P : Prop}
    (hP : pyeq (ev ρ a) (ev ρ b) = true ↔ P) : Exactly (cnt ρ l) P := by
  rw [u_cnt ρ h]
  constructor
  · intro hp; rw [if_pos (hP.2 hp)]
  · intro hp; rw [if_neg (fun h => hp (hP.1 h))]

/-! ### Arithmetic on values -/

variable {rnd : ℚ → ℚ}

/-- No rounding error: either rounding is the identity, or the values are all ints (or bools). -/
def NoErr (rnd : ℚ → ℚ) (l : List Val) : Prop := (∀ q, rnd q = q) ∨ ∀ v ∈ l, (int? v).isSome

theorem num_of_int {v : Val} {a : Int} (h : int? v = some a) : num? v = some (a : ℚ) := by
  cases v with
  | bool b => cases b <;> simp_all [int?, num?] <;> simp [← h]
  | int z => simp_all [int?, num?]
  | flt q => simp [int?] at h
  | str s => simp [int?] at h

theorem toF_id (hr : ∀ q, rnd q = q) {v : Val} {x : ℚ} (h : num? v = some x) : toF rnd v = x := by
  cases v <;> simp_all [toF, num?]

theorem num_arith {f : Int → Int → Int} {g : ℚ → ℚ → ℚ} (hfg : ∀ a b : Int, ((f a b : Int) : ℚ) = g a b)
    {v w : Val} {x y : ℚ} (hv : num? v = some x) (hw : num? w = some y) (h : NoErr rnd [v, w]) :
    num? (arith rnd f g v w) = some (g x y) := by
  unfold arith
  cases hi : int? v with
  | none =>
    rcases h with h | h
    · simp [num?, h, toF_id h hv, toF_id h hw]
    · simp [hi] at h
  | some a =>
    cases hj : int? w with
    | none =>
      rcases h with h | h
      · simp [num?, h, toF_id h hv, toF_id h hw]
      · simp [hi, hj] at h
    | some b =>
      rw [num_of_int hi] at hv; rw [num_of_int hj] at hw
      simp only [Option.some.injEq] at hv hw
      subst hv hw
      simp [num?, hfg]

theorem num_pmul {v w : Val} {x y : ℚ} (hv : num? v = some x) (hw : num? w = some y)
    (h : NoErr rnd [v, w]) : num? (pmul rnd v w) = some (x * y) :=
  num_arith (fun a b => by push_cast; rfl) hv hw h
theorem num_padd {v w : Val} {x y : ℚ} (hv : num? v = some x) (hw : num? w = some y)
    (h : NoErr rnd [v, w]) : num? (padd rnd v w) = some (x + y) :=
  num_arith (fun a b => by push_cast; rfl) hv hw h
theorem num_psub {v w : Val} {x y : ℚ} (hv : num? v = some x) (hw : num? w = some y)
    (h : NoErr rnd [v, w]) : num? (psub rnd v w) = some (x - y) :=
  num_arith (fun a b => by push_cast; rfl) hv hw h

theorem num_pdiv {v w : Val} {x y : ℚ} (hv : num? v = some x) (hw : num? w = some y)
    (h : rnd (x / y) = x / y)
    (h' : (∀ q, rnd q = q) ∨ ((int? v).isSome ∧ (int? w).isSome)) :
    num? (pdiv rnd v w) = some (x / y) := by
  unfold pdiv
  cases hi : int? v with
  | none =>
    rcases h' with h' | h'
    · simp [num?, h', toF_id h' hv, toF_id h' hw]
    · simp [hi] at h'
  | some a =>
    cases hj : int? w with
    | none =>
      rcases h' with h' | h'
      · simp [num?, h', toF_id h' hv, toF_id h' hw]
      · simp [hj] at h'
    | some b =>
      rw [num_of_int hi] at hv; rw [num_of_int hj] at hw
      simp only [Option.some.injEq] at hv hw
      subst hv hw
      simp [num?, h]

theorem num_pneg {v : Val} {x : ℚ} (h : num? v = some x) : num? (pneg v) = some (-x) := by
  cases v with
  | bool b => cases b <;> simp_all [pneg, num?] <;> simp [← h]
  | int z => simp_all [pneg, num?]
  | flt q => simp_all [pneg, num?]
  | str s => simp [num?] at h
theorem num_ppos {v : Val} {x : ℚ} (h : num? v = some x) : num? (ppos v) = some x := by
  cases v with
  | bool b => cases b <;> simp_all [ppos, num?]
  | int z => simp_all [ppos, num?]
  | flt q => simp_all [ppos, num?]
  | str s => simp [num?] at h
theorem num_pabs {v : Val} {x : ℚ} (h : num? v = some x) : num? (pabs v) = some |x| := by
  cases v with
  | bool b => cases b <;> simp_all [pabs, num?] <;> simp [← h]
  | int z => simp_all [pabs, num?]
  | flt q => simp_all [pabs, num?]
  | str s => simp [num?] at h

theorem arg_num_some {a : Arg} {v : Val} (h : a.num = some v) : a = .val v ∧ (num? v).isSome := by
  cases a with
  | var n => simp [Arg.num] at h
  | val w =>
    simp only [Arg.num] at h
    split at h
    · cases h; exact ⟨rfl, by assumption⟩
    · cases h

theorem ev_of_num {a : Arg} {v : Val} (ρ : Nat → Val) (h : a.num = some v) : ev ρ a = v := by
  rw [(arg_num_some h).1]; rfl

theorem strs_none {ρ : Nat → Val} {a : Arg} {x : ℚ} (h : num? (ev ρ a) = some x) : a.strs = none := by
  cases a with
  | var n => rfl
  | val v => cases v <;> simp_all [Arg.strs, ev, num?]

theorem isC_iff {a : Arg} {c : ℚ} : a.isC c = true ↔ ∃ v, a = .val v ∧ num? v = some c := by
  cases a <;> simp [Arg.isC]

/-! ### Multiplication and addition in every mode -/

/-- `x` and `y` are the numbers of `X`, `Y`; the quotient computed is exact. -/
theorem uDiv_exact {ρ : Nat → Val} {a : Arg} {v w : Val} {l : List Ans} (h : uDiv rnd a v w = .ans l)
    {x y z : ℚ} (hv : num? v = some x) (hw : num? w = some y) (hz : num? (ev ρ a) = some z)
    (hr : ∀ q, rnd q = q) : y ≠ 0 ∧ Exactly (cnt ρ l) (z = x / y) := by
  unfold uDiv at h
  split at h
  · cases h
  · rename_i hne
    refine ⟨fun h0 => hne (by rw [hw, h0]), u_exact h ?_⟩
    rw [pyeq_iff_num hz (by exact num_pdiv hv hw (hr _) (.inl hr))]

theorem exactly_congr {n : Nat} {P Q : Prop} (h : Exactly n P) (hpq : P ↔ Q) : Exactly n Q :=
  ⟨fun q => h.1 (hpq.2 q), fun q => h.2 (fun p => q (hpq.1 p))⟩

theorem dMul_exact {ρ : Nat → Val} {X Y Z : Arg} {l : List Ans} (h : dMul rnd X Y Z = .ans l)
    {x y z : ℚ} (hx : num? (ev ρ X) = some x) (hy : num? (ev ρ Y) = some y)
    (hz : num? (ev ρ Z) = some z) (hr : ∀ q, rnd q = q) : Exactly (cnt ρ l) (x = y * z) := by
  unfold dMul at h
  rw [strs_none hy] at h
  simp only at h
  split at h
  · rename_i v w h1 h2
    refine u_exact h ?_
    rw [ev_of_num ρ h1] at hy; rw [ev_of_num ρ h2] at hz
    exact pyeq_iff_num hx (num_pmul hy hz (.inl hr))
  · rename_i v w h1 h2 h3
    rw [ev_of_num ρ h1] at hy; rw [ev_of_num ρ h3] at hx
    obtain ⟨h0, hE⟩ := uDiv_exact h hx hy hz hr
    refine exactly_congr hE ?_
    rw [eq_div_iff h0, mul_comm, eq_comm]
  · rename_i v w h1 h2 h3
    rw [ev_of_num ρ h2] at hz; rw [ev_of_num ρ h3] at hx
    obtain ⟨h0, hE⟩ := uDiv_exact h hx hz hy hr
    refine exactly_congr hE ?_
    rw [eq_div_iff h0, eq_comm]
  · split at h
    · rename_i h1
      obtain ⟨v, rfl, hv⟩ := isC_iff.1 h1
      simp only [ev, hv, Option.some.injEq] at hy
      subst hy
      refine u_exact h ?_
      rw [pyeq_iff_num hx hz, one_mul]
    · split at h
      · rename_i h1
        obtain ⟨v, rfl, hv⟩ := isC_iff.1 h1
        simp only [ev, hv, Option.some.injEq] at hz
        subst hz
        refine u_exact h ?_
        rw [pyeq_iff_num hx hy, mul_one]
      · simp [fall] at h

theorem noErr_sub {l l' : List Val} (h : NoErr rnd l) (hs : ∀ v ∈ l', v ∈ l) : NoErr rnd l' :=
  h.imp _root_.id fun h v hv => h v (hs v hv)

theorem dAdd_exact {ρ : Nat → Val} {X Y Z : Arg} {l : List Ans} (h : dAdd rnd X Y Z = .ans l)
    {x y z : ℚ} (hx : num? (ev ρ X) = some x) (hy : num? (ev ρ Y) = some y)
    (hz : num? (ev ρ Z) = some z) (hr : NoErr rnd [ev ρ X, ev ρ Y, ev ρ Z]) :
    Exactly (cnt ρ l) (x = y + z) := by
  unfold dAdd at h
  rw [strs_none hy, strs_none hx] at h
  simp only at h
  split at h
  · rename_i v w h1 h2
    refine u_exact h ?_
    rw [ev_of_num ρ h1] at hy hr; rw [ev_of_num ρ h2] at hz hr
    exact pyeq_iff_num hx (num_padd hy hz (noErr_sub hr (by simp)))
  · rename_i v w h1 h2 h3
    rw [ev_of_num ρ h1] at hy hr; rw [ev_of_num ρ h3] at hx hr
    refine u_exact h ?_
    refine (pyeq_iff_num hz (num_psub hx hy (noErr_sub hr (by simp)))).trans ?_
    constructor <;> intro h <;> linarith
  · rename_i v w h1 h2 h3
    rw [ev_of_num ρ h2] at hz hr; rw [ev_of_num ρ h3] at hx hr
    refine u_exact h ?_
    refine (pyeq_iff_num hy (num_psub hx hz (noErr_sub hr (by simp)))).trans ?_
    constructor <;> intro h <;> linarith
  · split at h
    · rename_i h1
      obtain ⟨v, rfl, hv⟩ := isC_iff.1 h1
      simp only [ev, hv, Option.some.injEq] at hy
      subst hy
      refine u_exact h ?_
      rw [pyeq_iff_num hx hz, zero_add]
    · split at h
      · rename_i h1
        obtain ⟨v, rfl, hv⟩ := isC_iff.1 h1
        simp only [ev, hv, Option.some.injEq] at hz
        subst hz
        refine u_exact h ?_
        rw [pyeq_iff_num hx hy, add_zero]
      · simp [fall] at h

/-! ### Comparisons, minimum and maximum -/

theorem num_bool (b : Bool) : num? (.bool b) = some (if b then 1 else 0) := rfl

theorem pylt_num {v w : Val} {x y : ℚ} (hv : num? v = some x) (hw : num? w = some y) :
    pylt v w = some (decide (x < y)) := by
  cases v <;> cases w <;> simp_all [pylt, num?]

theorem val_of_bin {α : Type} {Y Z : Arg} {g : Val → Val → α} {d : α} {r : α}
    (h : (match Y, Z with | .val v, .val w => g v w | _, _ => d) = r) (hd : d ≠ r) :
    ∃ v w, Y = .val v ∧ Z = .val w ∧ g v w = r := by
  cases Y <;> cases Z <;> simp_all

theorem out_of_opt {o : Option Bool} {g : Bool → Out} {l : List Ans}
    (h : (match o with | some b => g b | none => .typeError) = .ans l) :
    ∃ b, o = some b ∧ g b = .ans l := by
  cases o <;> simp_all

theorem cmp_exact {ρ : Nat → Val} {X : Arg} {l : List Ans} {b : Bool} {x : ℚ} {P : Prop}
    (h : u X (.val (.bool b)) = .ans l) (hx : num? (ev ρ X) = some x) (hb : b = true ↔ P) :
    Exactly (cnt ρ l) ((x = 1 ∧ P) ∨ (x = 0 ∧ ¬ P)) := by
  refine u_exact h ?_
  refine (pyeq_iff_num hx (num_bool b)).trans ?_
  cases b <;> simp_all

theorem dBin_exact {ρ : Nat → Val} {f : Fn} {X Y Z : Arg} {l : List Ans}
    (h : dBin rnd f X Y Z = .ans l)
    {x y z : ℚ} (hx : num? (ev ρ X) = some x) (hy : num? (ev ρ Y) = some y)
    (hz : num? (ev ρ Z) = some z) (h0 : f = .div → z ≠ 0)
    (hr : (∀ q, rnd q = q) ∨
      (f ≠ .mul ∧ f ≠ .div ∧ NoErr rnd [ev ρ X, ev ρ Y, ev ρ Z])) :
    Exactly (cnt ρ l) (Rel f x y z) := by
  have hE : NoErr rnd [ev ρ X, ev ρ Y, ev ρ Z] := by
    rcases hr with hr | hr
    · exact .inl hr
    · exact hr.2.2
  have cmp : ∀ f', (match Y, Z with
      | .val v, .val w =>
        match cmpV f' v w with
        | some b => u X (.val (.bool b))
        | none => .typeError
      | _, _ => fall f') = Out.ans l → ∃ v w b, Y = .val v ∧ Z = .val w ∧ cmpV f' v w = some b ∧
        num? v = some y ∧ num? w = some z ∧ u X (.val (.bool b)) = .ans l := by
    intro f' h
    obtain ⟨v, w, rfl, rfl, h'⟩ := val_of_bin h (by unfold fall; split <;> simp)
    obtain ⟨b, hb, h⟩ := out_of_opt h'
    exact ⟨v, w, b, rfl, rfl, hb, hy, hz, h⟩
  cases f with
  | mul =>
    rcases hr with hr | hr
    · exact dMul_exact h hx hy hz hr
    · exact absurd rfl hr.1
  | add => exact dAdd_exact h hx hy hz hE
  | div =>
    rcases hr with hr | hr
    · refine exactly_congr (dMul_exact h hy hx hz hr) ?_
      have h0 := h0 rfl
      simp only [Rel, ne_eq, h0, not_false_eq_true, true_and]
      rw [eq_div_iff h0, eq_comm]
    · exact absurd rfl hr.2.1
  | sub =>
    refine exactly_congr (dAdd_exact h hy hx hz (noErr_sub hE (by simp))) ?_
    simp only [Rel]
    constructor <;> intro h <;> linarith
  | min =>
    obtain ⟨v, w, rfl, rfl, h'⟩ := val_of_bin h (by simp [fall])
    obtain ⟨b, hb, h⟩ := out_of_opt h'
    simp only [ev] at hy hz
    rw [pylt_num hz hy] at hb
    simp only [Option.some.injEq] at hb
    subst hb
    refine u_exact h ?_
    by_cases hlt : z < y
    · simp only [hlt, decide_true, if_true, Rel]
      refine (pyeq_iff_num hx hz).trans ?_
      exact ⟨fun h => .inr ⟨h, hlt.le⟩, fun h => h.elim (fun h => absurd h.2 (not_le.2 hlt)) (·.1)⟩
    · simp only [hlt, decide_false, Bool.false_eq_true, if_false, Rel]
      refine (pyeq_iff_num hx hy).trans ?_
      exact ⟨fun h => .inl ⟨h, not_lt.1 hlt⟩, fun h => h.elim (·.1) (fun h => by
        rw [h.1]; exact le_antisymm h.2 (not_lt.1 hlt))⟩
  | max =>
    obtain ⟨v, w, rfl, rfl, h'⟩ := val_of_bin h (by simp [fall])
    obtain ⟨b, hb, h⟩ := out_of_opt h'
    simp only [ev] at hy hz
    rw [pylt_num hy hz] at hb
    simp only [Option.some.injEq] at hb
    subst hb
    refine u_exact h ?_
    by_cases hlt : y < z
    · simp only [hlt, decide_true, if_true, Rel]
      refine (pyeq_iff_num hx hz).trans ?_
      exact ⟨fun h => .inr ⟨h, hlt.le⟩, fun h => h.elim (fun h => absurd h.2 (not_le.2 hlt)) (·.1)⟩
    · simp only [hlt, decide_false, Bool.false_eq_true, if_false, Rel]
      refine (pyeq_iff_num hx hy).trans ?_
      exact ⟨fun h => .inl ⟨h, not_lt.1 hlt⟩, fun h => h.elim (·.1) (fun h => by
        rw [h.1]; exact le_antisymm (not_lt.1 hlt) h.2)⟩
  | lt =>
    obtain ⟨v, w, b, rfl, rfl, hb, hv, hw, h⟩ := cmp .lt h
    refine cmp_exact h hx ?_
    simp only [cmpV, pylt_num hv hw, Option.some.injEq] at hb
    simp [← hb]
  | gt =>
    obtain ⟨v, w, b, rfl, rfl, hb, hv, hw, h⟩ := cmp .gt h
    refine cmp_exact h hx ?_
    simp only [cmpV, pylt_num hw hv, Option.some.injEq] at hb
    simp [← hb]
  | le =>
    obtain ⟨v, w, b, rfl, rfl, hb, hv, hw, h⟩ := cmp .le h
    refine cmp_exact h hx ?_
    simp only [cmpV, pylt_num hw hv, Option.map_some, Option.some.injEq] at hb
    simp [← hb]
  | ge =>
    obtain ⟨v, w, b, rfl, rfl, hb, hv, hw, h⟩ := cmp .ge h
    refine cmp_exact h hx ?_
    simp only [cmpV, pylt_num hv hw, Option.map_some, Option.some.injEq] at hb
    simp [← hb]
  | eq =>
    obtain ⟨v, w, b, rfl, rfl, hb, hv, hw, h⟩ := cmp .eq h
    refine cmp_exact h hx ?_
    simp only [cmpV, Option.some.injEq] at hb
    rw [← hb, pyeq_iff_num hv hw]
  | ne =>
    obtain ⟨v, w, b, rfl, rfl, hb, hv, hw, h⟩ := cmp .ne h
    have := cmp_exact (P := y ≠ z) h hx (by
      simp only [cmpV, Option.some.injEq] at hb
      rw [← hb, Bool.not_eq_true', ← Bool.not_eq_true, pyeq_iff_num hv hw])
    refine exactly_congr this ?_
    simp [Rel]
  | abs | str | int | not | range | user => simp [dBin, fall] at h

/-! ### Property C43 -/

/-- **C43, arithmetic.**  For every operator, every pattern of bound and unbound arguments, every sharing
of variables: when the builtin produces answers, an assignment of numbers to the variables respects
exactly one of the answers if it satisfies the relation, and none if it does not.  With exact arithmetic;
a divisor must not be zero. -/
theorem C43_arith {ρ : Nat → Val} {f : Fn} {X Y Z : Arg} {l : List Ans}
    (h : dispatch rnd (.is X (.bin f Y Z)) = .ans l)
    {x y z : ℚ} (hx : num? (ev ρ X) = some x) (hy : num? (ev ρ Y) = some y)
    (hz : num? (ev ρ Z) = some z) (h0 : f = .div → z ≠ 0) (hr : ∀ q, rnd q = q) :
    Exactly (cnt ρ l) (Rel f x y z) :=
  dBin_exact h hx hy hz h0 (.inl hr)

/-- **C43, integers.**  On ints, addition, subtraction, minimum, maximum and the comparisons need no
assumption about float rounding. -/
theorem C43_int {ρ : Nat → Val} {f : Fn} {X Y Z : Arg} {l : List Ans}
    (h : dispatch rnd (.is X (.bin f Y Z)) = .ans l) (hf : f ≠ .mul ∧ f ≠ .div)
    {x y z : ℤ} (hx : ev ρ X = .int x) (hy : ev ρ Y = .int y) (hz : ev ρ Z = .int z) :
    Exactly (cnt ρ l) (Rel f x y z) :=
  dBin_exact h (by rw [hx]; rfl) (by rw [hy]; rfl) (by rw [hz]; rfl) (fun h => absurd h hf.2)
    (.inr ⟨hf.1, hf.2, .inr (by simp [hx, hy, hz, int?])⟩)

/-- **C43, negation and absolute value.**  As `C43_arith`, for the operators of one argument; the
absolute value asked for must not be negative. -/
theorem C43_unary {ρ : Nat → Val} {f : Fn} (hf : f = .sub ∨ f = .add ∨ f = .abs) {X Y : Arg}
    {l : List Ans} (h : dispatch rnd (.is X (.un f Y)) = .ans l)
    {x y : ℚ} (hx : num? (ev ρ X) = some x) (hy : num? (ev ρ Y) = some y)
    (h0 : f = .abs → 0 ≤ x) : Exactly (cnt ρ l) (RelU f x y) := by
  simp only [dispatch, dUn] at h
  rcases hf with rfl | rfl | rfl
  · simp only at h
    split at h
    · rename_i v h1
      rw [ev_of_num ρ h1] at hy
      exact u_exact h (pyeq_iff_num hx (num_pneg hy))
    · rename_i v h1 h2
      rw [ev_of_num ρ h2] at hx
      refine u_exact h ?_
      refine (pyeq_iff_num hy (num_pneg hx)).trans ?_
      simp only [RelU]
      constructor <;> intro h <;> linarith
    · simp [fall] at h
  · simp only at h
    split at h
    · rename_i v h1
      rw [ev_of_num ρ h1] at hy
      exact u_exact h (pyeq_iff_num hx (num_ppos hy))
    · rename_i v h1 h2
      rw [ev_of_num ρ h2] at hx
      refine u_exact h ?_
      refine (pyeq_iff_num hy (num_ppos hx)).trans ?_
      simp only [RelU]
      constructor <;> intro h <;> linarith
    · simp [fall] at h
  · have habs : ∀ {x y : ℚ}, x = |y| ↔ RelU .abs x y := by
      intro x y
      simp only [RelU]
      rcases le_total 0 y with h | h
      · rw [abs_of_nonneg h]
        refine ⟨fun e => .inl ⟨e, h⟩, fun e => e.elim (·.1) fun e => ?_⟩
        have : y = 0 := le_antisymm e.2 h
        rw [e.1, this, neg_zero]
      · rw [abs_of_nonpos h]
        refine ⟨fun e => .inr ⟨e, h⟩, fun e => e.elim (fun e => ?_) (·.1)⟩
        have : y = 0 := le_antisymm h e.2
        rw [e.1, this, neg_zero]
    simp only at h
    split at h
    · rename_i v h1
      rw [ev_of_num ρ h1] at hy
      refine u_exact h ?_
      rw [← habs]
      exact pyeq_iff_num hx (num_pabs hy)
    · rename_i v h1 h2
      rw [ev_of_num ρ h2] at hx
      have h0 := h0 rfl
      have key : ∀ {v : Val} {q : ℚ}, num? v = some q →
          cnt ρ (unify [] Y (.val v)).toList = if y = q then 1 else 0 := by
        intro v q hv
        rw [unify_cnt]
        have : pyeq (ev ρ Y) (ev ρ (.val v)) = true ↔ y = q := pyeq_iff_num hy hv
        simp [Holds, this]
      refine exactly_congr ?_ habs
      by_cases hp : pyeq (ppos v) (pneg v) = true
      · have hx0 : x = 0 := by
          rw [pyeq_iff_num (num_ppos hx) (num_pneg hx)] at hp; linarith
        simp only [hp, if_true, List.map_cons, List.map_nil, List.flatten_cons, List.flatten_nil,
          List.append_nil, Out.ans.injEq] at h
        rw [← h, key (num_ppos hx), hx0]
        constructor
        · intro e; rw [if_pos]; exact abs_eq_zero.1 e.symm
        · intro e; rw [if_neg]; rintro rfl; exact e (by simp)
      · have hx0 : x ≠ -x := fun e => hp ((pyeq_iff_num (num_ppos hx) (num_pneg hx)).2 e)
        simp only [hp, if_false, List.map_cons, List.map_nil, List.flatten_cons, List.flatten_nil,
          List.append_nil, Out.ans.injEq] at h
        have hc : cnt ρ l = (if y = x then 1 else 0) + (if y = -x then 1 else 0) := by
          rw [← h, ← key (num_ppos hx), ← key (num_pneg hx)]
          simp [cnt, List.countP_append]
        rw [hc]
        constructor
        · intro e
          rcases abs_choice y with ha | ha
          · rw [ha] at e
            subst e
            rw [if_pos rfl, if_neg hx0]
          · rw [ha] at e
            have e' : y = -x := by linarith
            rw [if_neg (by rw [e']; exact fun h => hx0 h.symm), if_pos e']
        · intro e
          rw [if_neg, if_neg]
          · rintro rfl; exact e (by rw [abs_neg, abs_of_nonneg h0])
          · rintro rfl; exact e (by rw [abs_of_nonneg h0])
    · simp [fall] at h

theorem pyeq_bool {v : Val} {b c : Bool} (h : v = .bool b) : pyeq v (.bool c) = true ↔ b = c := by
  subst h
  rw [pyeq_iff_num (num_bool b) (num_bool c)]
  cases b <;> cases c <;> simp

/-- **C43, negation of truth values.**  `X is !Y` on booleans, in every mode. -/
theorem C43_not {ρ : Nat → Val} {X Y : Arg} {l : List Ans}
    (h : dispatch rnd (.is X (.un .not Y)) = .ans l) {x y : Bool}
    (hx : ev ρ X = .bool x) (hy : ev ρ Y = .bool y) : Exactly (cnt ρ l) (x ≠ y) := by
  simp only [dispatch, dUn] at h
  have flip : x = (!y) ↔ x ≠ y := by cases x <;> cases y <;> simp
  cases Y with
  | val v =>
    simp only [ev] at hy
    subst hy
    exact u_exact h ((pyeq_bool hx).trans flip)
  | var n =>
    cases X with
    | var m => simp [fall] at h
    | val v =>
      simp only [ev] at hx
      subst hx
      refine u_exact h ((pyeq_bool hy).trans ?_)
      cases x <;> cases y <;> simp

/-- **C43, type tests.**  `X is str(Y)` and `X is int(Y)` with `Y` known: `X` is the truth value of
"`Y` is a string" and "`Y` is an int or a bool". -/
theorem C43_type {ρ : Nat → Val} {X : Arg} {v : Val} {x : Bool} (hx : ev ρ X = .bool x) :
    (∀ l, dispatch rnd (.is X (.un .str (.val v))) = .ans l →
      Exactly (cnt ρ l) (x = true ↔ ∃ s, v = .str s)) ∧
    (∀ l, dispatch rnd (.is X (.un .int (.val v))) = .ans l →
      Exactly (cnt ρ l) (x = true ↔ (∃ z, v = .int z) ∨ ∃ b, v = .bool b)) := by
  constructor
  · intro l h
    refine u_exact h ((pyeq_bool hx).trans ?_)
    cases v <;> cases x <;> simp
  · intro l h
    refine u_exact h ((pyeq_bool hx).trans ?_)
    cases v <;> cases x <;> simp [int?]

/-- **C43, enumeration of the integers.**  `true is int(Y)` with `Y` unknown runs forever and yields
every integer, each at exactly one place. -/
theorem C43_enum (n : Nat) : ∃ f, dispatch rnd (.is (.val (.bool true)) (.un .int (.var n))) = .enum f ∧
    ∀ (ρ : Nat → Val) (z : Int), ρ n = .int z → ∃! i, Holds ρ (f i) := by
  refine ⟨_, rfl, fun ρ z hz => ?_⟩
  have key : ∀ i, Holds ρ [(n, Arg.val (.int (enumInt i)))] ↔ z = enumInt i := by
    intro i
    simp only [Holds, List.mem_singleton, forall_eq, ev, hz]
    rw [pyeq_iff_num (x := (z : ℚ)) (y := ((enumInt i : Int) : ℚ)) rfl rfl]
    exact Int.cast_inj
  rcases lt_or_ge 0 z with h | h
  · refine ⟨2 * z.toNat - 1, (key _).2 ?_, fun j hj => ?_⟩
    · unfold enumInt; rw [if_pos (by omega)]; omega
    · have := (key _).1 hj
      unfold enumInt at this
      split at this <;> omega
  · refine ⟨2 * (-z).toNat, (key _).2 ?_, fun j hj => ?_⟩
    · unfold enumInt; rw [if_neg (by omega)]; omega
    · have := (key _).1 hj
      unfold enumInt at this
      split at this <;> omega

/-! #### Ranges and strings: counting over a list of candidate answers -/

theorem cnt_append (ρ : Nat → Val) (l m : List Ans) : cnt ρ (l ++ m) = cnt ρ l + cnt ρ m := by
  simp [cnt, List.countP_append]

theorem cnt_range (ρ : Nat → Val) (F : Nat → List Ans) (P : Nat → Prop)
    (hF : ∀ i, Exactly (cnt ρ (F i)) (P i)) (huniq : ∀ i j, P i → P j → i = j) (n : Nat) :
    Exactly (cnt ρ ((List.range n).flatMap F)) (∃ i, i < n ∧ P i) := by
  induction n with
  | zero => exact ⟨fun ⟨i, h, _⟩ => absurd h (Nat.not_lt_zero _), fun _ => rfl⟩
  | succ n ih =>
    rw [List.range_succ, List.flatMap_append, cnt_append]
    have hs : ([n].flatMap F) = F n := by simp
    rw [hs]
    by_cases hn : P n
    · have h0 : cnt ρ ((List.range n).flatMap F) = 0 := ih.2 fun ⟨i, hi, hp⟩ => by
        have := huniq _ _ hp hn; omega
      rw [h0, (hF n).1 hn]
      exact ⟨fun _ => rfl, fun h => absurd ⟨n, Nat.lt_succ_self _, hn⟩ h⟩
    · rw [(hF n).2 hn, Nat.add_zero]
      refine exactly_congr ih ⟨fun ⟨i, hi, hp⟩ => ⟨i, by omega, hp⟩, fun ⟨i, hi, hp⟩ => ⟨i, ?_, hp⟩⟩
      rcases Nat.lt_succ_iff_lt_or_eq.1 hi with h | h
      · exact h
      · subst h; exact absurd hp hn

/-- **C43, ranges.**  `true is range(X, A, B)` yields `X` exactly once for each integer `A ≤ X < B`, and
nothing else. -/
theorem C43_range {ρ : Nat → Val} {X A B : Arg} {l : List Ans} {V : Arg}
    (h : dispatch rnd (.is V (.tri .range X A B)) = .ans l) {x a b : Int}
    (hx : ev ρ X = .int x) (hA : ev ρ A = .int a) (hB : ev ρ B = .int b) :
    V = .val (.bool true) ∧ Exactly (cnt ρ l) (a ≤ x ∧ x < b) := by
  simp only [dispatch, dTri] at h
  split at h
  · rename_i v w _
    refine ⟨rfl, ?_⟩
    simp only [ev] at hA hB
    subst hA hB
    simp only [int?, Out.ans.injEq] at h
    rw [← h, ← List.flatMap_def]
    have hF : ∀ i : Nat, Exactly (cnt ρ (unify [] X (.val (.int (a + i)))).toList) (x = a + i) := by
      intro i
      refine u_exact rfl ?_
      rw [hx]
      refine (pyeq_iff_num (x := (x : ℚ)) (y := ((a + i : Int) : ℚ)) rfl rfl).trans ?_
      exact Int.cast_inj
    refine exactly_congr (cnt_range ρ _ (fun i : Nat => x = a + i) hF (fun i j h h' => by omega) _) ?_
    constructor
    · rintro ⟨i, hi, e⟩; omega
    · rintro ⟨h1, h2⟩; exact ⟨(x - a).toNat, by omega, by omega⟩
  · unfold fall at h; split at h <;> cases h

theorem pyeq_str {v : Val} {t : List Char} : pyeq v (.str t) = true ↔ v = .str t := by
  cases v with
  | str s => rw [pyeq_none rfl rfl]
  | bool b => simp [pyeq, num?]
  | int b => simp [pyeq, num?]
  | flt b => simp [pyeq, num?]

theorem split_cnt (ρ : Nat → Val) (Y Z : Arg) (a b : List Char) :
    Exactly (cnt ρ (match unify [] Y (.val (.str a)) with
      | some e => (unify e Z (.val (.str b))).toList
      | none => [])) (ev ρ Y = .str a ∧ ev ρ Z = .str b) := by
  have h1 := unify_cnt ρ [] Y (.val (.str a))
  have hY : pyeq (ev ρ Y) (ev ρ (.val (.str a))) = true ↔ ev ρ Y = .str a := pyeq_str
  have hZ : pyeq (ev ρ Z) (ev ρ (.val (.str b))) = true ↔ ev ρ Z = .str b := pyeq_str
  have hn : Holds ρ [] := by simp [Holds]
  cases hu : unify [] Y (.val (.str a)) with
  | none =>
    rw [hu] at h1
    refine ⟨fun h => ?_, fun _ => rfl⟩
    rw [if_pos ⟨hn, hY.2 h.1⟩] at h1
    cases h1
  | some e =>
    rw [hu] at h1
    have he : Holds ρ e ↔ ev ρ Y = .str a := by
      by_cases hy : ev ρ Y = .str a
      · rw [if_pos ⟨hn, hY.2 hy⟩] at h1
        by_cases hh : Holds ρ e
        · simp [hh, hy]
        · simp [cnt, hh] at h1
      · rw [if_neg (fun h => hy (hY.1 h.2))] at h1
        by_cases hh : Holds ρ e
        · simp [cnt, hh] at h1
        · simp [hh, hy]
    rw [show (match some e with
      | some e => (unify e Z (.val (.str b))).toList
      | none => []) = (unify e Z (.val (.str b))).toList from rfl, unify_cnt]
    simp only [he, hZ]
    constructor
    · intro h; rw [if_pos h]
    · intro h; rw [if_neg h]

/-- **C43, strings.**  `X is Y + Z` with a string on either side: an assignment respects exactly one
answer if the values of `Y` and `Z` are strings that make up `X`, and none otherwise. -/
theorem C43_concat {ρ : Nat → Val} {X Y Z : Arg} {l : List Ans}
    (h : dispatch rnd (.is X (.bin .add Y Z)) = .ans l) {s : List Char} (hs : ev ρ X = .str s)
    (hX : X = .val (.str s) ∨ ∃ a b, Y = .val (.str a) ∧ Z = .val (.str b)) :
    Exactly (cnt ρ l) (∃ a b, ev ρ Y = .str a ∧ ev ρ Z = .str b ∧ s = a ++ b) := by
  rcases hX with rfl | ⟨a, b, rfl, rfl⟩
  swap
  · refine u_exact h (pyeq_str.trans ?_)
    rw [hs]
    simp [ev]
  simp only [dispatch, dBin, dAdd] at h
  split at h
  · rename_i a b h1 h2
    have e1 : Y = .val (.str a) := by
      cases Y with
      | var n => simp [Arg.strs] at h1
      | val v => cases v <;> simp_all [Arg.strs]
    have e2 : Z = .val (.str b) := by
      cases Z with
      | var n => simp [Arg.strs] at h2
      | val v => cases v <;> simp_all [Arg.strs]
    subst e1 e2
    refine u_exact h (pyeq_str.trans ?_)
    simp [ev]
  · simp only [Arg.strs, Out.ans.injEq] at h
    rw [← h]
    unfold splits
    have hc : ∀ n ≤ s.length + 1, Exactly (cnt ρ ((List.range n).flatMap fun k =>
        match unify [] Y (.val (.str (s.take k))) with
        | some e => (unify e Z (.val (.str (s.drop k)))).toList
        | none => []))
        (∃ k, k < n ∧ ev ρ Y = .str (s.take k) ∧ ev ρ Z = .str (s.drop k)) := by
      intro n
      induction n with
      | zero => intro _; exact ⟨fun ⟨i, h, _⟩ => absurd h (Nat.not_lt_zero _), fun _ => rfl⟩
      | succ n ih =>
        intro hn
        have ih := ih (by omega)
        rw [List.range_succ, List.flatMap_append, cnt_append]
        rw [List.flatMap_cons, List.flatMap_nil, List.append_nil]
        have hk := split_cnt ρ Y Z (s.take n) (s.drop n)
        by_cases hp : ev ρ Y = .str (s.take n) ∧ ev ρ Z = .str (s.drop n)
        · rw [hk.1 hp, ih.2]
          · exact ⟨fun _ => rfl, fun h => absurd ⟨n, Nat.lt_succ_self _, hp⟩ h⟩
          · rintro ⟨i, hi, h1, _⟩
            have h2 := h1.symm.trans hp.1
            simp only [Val.str.injEq] at h2
            have := congrArg List.length h2
            simp only [List.length_take] at this
            omega
        · rw [hk.2 hp, Nat.add_zero]
          refine exactly_congr ih ⟨fun ⟨i, hi, hp⟩ => ⟨i, by omega, hp⟩,
            fun ⟨i, hi, hp'⟩ => ⟨i, ?_, hp'⟩⟩
          rcases Nat.lt_succ_iff_lt_or_eq.1 hi with h | h
          · exact h
          · subst h; exact absurd hp' hp
    refine exactly_congr (hc _ le_rfl) ?_
    constructor
    · rintro ⟨k, _, h1, h2⟩; exact ⟨_, _, h1, h2, (List.take_append_drop k s).symm⟩
    · rintro ⟨a, b, h1, h2, rfl⟩
      exact ⟨a.length, by simp; omega, by simp [h1], by simp [h2]⟩

/-- **C43, string repetition.**  `X is "s" * Z` with `Z` a known int: `X` is `Z` copies of the string
(none when `Z` is negative). -/
theorem C43_repeat {ρ : Nat → Val} {X : Arg} {s : List Char} {k : Int} {l : List Ans}
    (h : dispatch rnd (.is X (.bin .mul (.val (.str s)) (.val (.int k)))) = .ans l) :
    Exactly (cnt ρ l) (∃ n : Nat, n = max k 0 ∧ ev ρ X = .str (List.replicate n s).flatten) := by
  refine u_exact h (pyeq_str.trans ?_)
  constructor
  · intro h; exact ⟨k.toNat, by omega, h⟩
  · rintro ⟨n, hn, h⟩; rw [h, show k.toNat = n by omega]

/-! #### Supported modes -/

/-- The known number of an argument. -/
def Known (a : Arg) (x : ℚ) : Prop := ∃ v, a = .val v ∧ num? v = some x

theorem known_num {a : Arg} {x : ℚ} (h : Known a x) : ∃ v, a.num = some v ∧ num? v = some x := by
  obtain ⟨v, rfl, h⟩ := h; exact ⟨v, by simp [Arg.num, h], h⟩

theorem known_strs {a : Arg} {x : ℚ} (h : Known a x) : a.strs = none := by
  obtain ⟨v, rfl, h⟩ := h; exact strs_none (ρ := fun _ => .int 0) (a := .val v) h

theorem u_ans (a b : Arg) : ∃ l, u a b = .ans l := ⟨_, rfl⟩

/-- **C43, supported modes.**  With two of the three arguments known numbers (and the third a variable or
a number), the four operations produce answers rather than raising, provided the quotient computed does
not divide by zero: the divisor is the known factor of a product, the value of a quotient, or the divisor
of a quotient. -/
theorem C43_mode {X Y Z : Arg} {x y z : ℚ} (hY : Y.strs = none) (hZ : Z.strs = none)
    (hX : X.strs = none) :
    ((Known Y y ∧ Known Z z) ∨ (Known X x ∧ Known Y y) ∨ (Known X x ∧ Known Z z) →
      ∃ l, dispatch rnd (.is X (.bin .add Y Z)) = .ans l) ∧
    ((Known Y y ∧ Known Z z) ∨ (Known X x ∧ Known Y y) ∨ (Known X x ∧ Known Z z) →
      ∃ l, dispatch rnd (.is X (.bin .sub Y Z)) = .ans l) ∧
    ((Known Y y ∧ Known Z z) ∨ (Known X x ∧ Known Y y ∧ y ≠ 0) ∨ (Known X x ∧ Known Z z ∧ z ≠ 0) →
      ∃ l, dispatch rnd (.is X (.bin .mul Y Z)) = .ans l) ∧
    ((Known Y y ∧ Known Z z ∧ z ≠ 0) ∨ (Known X x ∧ Known Y y ∧ x ≠ 0) ∨ (Known X x ∧ Known Z z) →
      ∃ l, dispatch rnd (.is X (.bin .div Y Z)) = .ans l) := by
  have nn : ∀ {a : Arg} {v : Val}, a.num = some v → ∃ q, num? v = some q := fun h =>
    Option.isSome_iff_exists.1 (arg_num_some h).2
  have add : ∀ {X Y Z : Arg} {x y z : ℚ}, X.strs = none → Y.strs = none →
      (Known Y y ∧ Known Z z) ∨ (Known X x ∧ Known Y y) ∨ (Known X x ∧ Known Z z) →
      ∃ l, dAdd rnd X Y Z = .ans l := by
    intro X Y Z x y z hX hY h
    unfold dAdd
    rw [hY, hX]
    simp only
    rcases h with ⟨h1, h2⟩ | ⟨h1, h2⟩ | ⟨h1, h2⟩ <;>
      obtain ⟨v, hv, _⟩ := known_num h1 <;> obtain ⟨w, hw, _⟩ := known_num h2 <;>
      rw [hv, hw]
    · exact u_ans _ _
    · cases Z.num <;> exact u_ans _ _
    · cases Y.num <;> exact u_ans _ _
  have mul : ∀ {X Y Z : Arg} {x y z : ℚ}, Y.strs = none →
      (Known Y y ∧ Known Z z) ∨ (Known X x ∧ Known Y y ∧ y ≠ 0) ∨ (Known X x ∧ Known Z z ∧ z ≠ 0) →
      ∃ l, dMul rnd X Y Z = .ans l := by
    intro X Y Z x y z hY h
    unfold dMul
    rw [hY]
    simp only
    rcases h with ⟨h1, h2⟩ | ⟨h1, h2, h0⟩ | ⟨h1, h2, h0⟩ <;>
      obtain ⟨v, hv, _⟩ := known_num h1 <;> obtain ⟨w, hw, hw'⟩ := known_num h2 <;>
      rw [hv, hw]
    · exact u_ans _ _
    · cases Z.num
      · simp only [uDiv]; rw [if_neg (by rw [hw']; simpa using h0)]; exact u_ans _ _
      · exact u_ans _ _
    · cases Y.num
      · simp only [uDiv]; rw [if_neg (by rw [hw']; simpa using h0)]; exact u_ans _ _
      · exact u_ans _ _
  refine ⟨add hX hY, fun h => add (x := y) (y := x) (z := z) hY hX ?_, mul hY, fun h => mul (x := y) (y := x) (z := z) hX ?_⟩
  · rcases h with ⟨h1, h2⟩ | ⟨h1, h2⟩ | ⟨h1, h2⟩
    · exact .inr (.inr ⟨h1, h2⟩)
    · exact .inr (.inl ⟨h2, h1⟩)
    · exact .inl ⟨h1, h2⟩
  · rcases h with ⟨h1, h2, h0⟩ | ⟨h1, h2, h0⟩ | ⟨h1, h2⟩
    · exact .inr (.inr ⟨h1, h2, h0⟩)
    · exact .inr (.inl ⟨h2, h1, h0⟩)
    · exact .inl ⟨h1, h2⟩

/-! #### Readiness -/

/-- Bind some variables to values. -/
def inst (σ : Nat → Option Val) : Arg → Arg
  | .val v => .val v
  | .var n => match σ n with | some v => .val v | none => .var n

def instE (σ : Nat → Option Val) : Expr → Expr
  | .lit a => .lit (inst σ a)
  | .un f y => .un f (inst σ y)
  | .bin f y z => .bin f (inst σ y) (inst σ z)
  | .tri f x a b => .tri f (inst σ x) (inst σ a) (inst σ b)

/-- The bindings are numbers. -/
def Nums (σ : Nat → Option Val) : Prop := ∀ n v, σ n = some v → ∃ q, num? v = some q

theorem num_eq (a : Arg) : a.num.isSome = true ↔ ∃ q, Known a q := by
  constructor
  · intro h
    obtain ⟨v, hv⟩ := Option.isSome_iff_exists.1 h
    obtain ⟨rfl, h'⟩ := arg_num_some hv
    obtain ⟨q, hq⟩ := Option.isSome_iff_exists.1 h'
    exact ⟨q, v, rfl, hq⟩
  · rintro ⟨q, hq⟩
    obtain ⟨v, hv, _⟩ := known_num hq
    rw [hv]; rfl

theorem isC_known {a : Arg} {c : ℚ} : a.isC c = true ↔ Known a c := isC_iff

theorem uDiv_ans {a : Arg} {v w : Val} {q : ℚ} (hw : num? w = some q) :
    (∃ l, uDiv rnd a v w = .ans l) ↔ q ≠ 0 := by
  unfold uDiv
  rw [hw]
  by_cases h : q = 0
  · simp [h]
  · simp [h, u]

theorem known_val {v : Val} {q : ℚ} : Known (.val v) q ↔ num? v = some q := by
  constructor
  · rintro ⟨w, e, h⟩; cases e; exact h
  · intro h; exact ⟨v, rfl, h⟩

theorem known_unique {a : Arg} {q r : ℚ} (h : Known a q) (h' : Known a r) : q = r := by
  obtain ⟨v, rfl, h⟩ := h
  rw [known_val, h] at h'
  exact Option.some.inj h'

theorem not_known_of_none {a : Arg} (h : a.num = none) (q : ℚ) : ¬ Known a q := by
  intro hk; obtain ⟨v, hv, _⟩ := known_num hk; rw [h] at hv; cases hv

theorem known_of_some {a : Arg} {v : Val} (h : a.num = some v) : ∃ q, Known a q ∧ num? v = some q := by
  obtain ⟨rfl, h'⟩ := arg_num_some h
  obtain ⟨q, hq⟩ := Option.isSome_iff_exists.1 h'
  exact ⟨q, known_val.2 hq, hq⟩

/-- When a product with a non-string first factor has answers. -/
theorem dMul_ans {X Y Z : Arg} (hY : Y.strs = none) :
    (∃ l, dMul rnd X Y Z = .ans l) ↔
      (∃ y z, Known Y y ∧ Known Z z) ∨ (∃ x y, Known X x ∧ Known Y y ∧ y ≠ 0) ∨
      (∃ x z, Known X x ∧ Known Z z ∧ z ≠ 0) ∨ Known Y 1 ∨ Known Z 1 := by
  unfold dMul
  rw [hY]
  simp only
  cases h1 : Y.num with
  | some y =>
    obtain ⟨y', hy, hy'⟩ := known_of_some h1
    cases h2 : Z.num with
    | some z =>
      obtain ⟨z', hz, _⟩ := known_of_some h2
      exact ⟨fun _ => .inl ⟨_, _, hy, hz⟩, fun _ => u_ans _ _⟩
    | none =>
      have hZ := not_known_of_none h2
      cases h3 : X.num with
      | some x =>
        obtain ⟨x', hx, _⟩ := known_of_some h3
        simp only [uDiv_ans hy']
        constructor
        · intro h; exact .inr (.inl ⟨_, _, hx, hy, h⟩)
        · rintro (⟨_, _, _, h⟩ | ⟨_, b, _, h, h0⟩ | ⟨_, _, _, h, _⟩ | h | h)
          · exact absurd h (hZ _)
          · rwa [known_unique hy h]
          · exact absurd h (hZ _)
          · rw [known_unique hy h]; exact one_ne_zero
          · exact absurd h (hZ _)
      | none =>
        have hX := not_known_of_none h3
        by_cases hc : Known Y 1
        · simp only [isC_known.2 hc, if_true]
          exact ⟨fun _ => .inr (.inr (.inr (.inl hc))), fun _ => u_ans _ _⟩
        · have hc' : Y.isC 1 = false := by
            rw [← Bool.not_eq_true, isC_known]; exact hc
          have hc2 : Z.isC 1 = false := by
            rw [← Bool.not_eq_true, isC_known]; exact hZ _
          simp [hc', hc2, fall, hZ, hX, hc]
  | none =>
    have hY' := not_known_of_none h1
    cases h2 : Z.num with
    | some z =>
      obtain ⟨z', hz, hz'⟩ := known_of_some h2
      cases h3 : X.num with
      | some x =>
        obtain ⟨x', hx, _⟩ := known_of_some h3
        simp only [uDiv_ans hz']
        constructor
        · intro h; exact .inr (.inr (.inl ⟨_, _, hx, hz, h⟩))
        · rintro (⟨_, _, h, _⟩ | ⟨_, b, _, h, h0⟩ | ⟨_, _, _, h, h0⟩ | h | h)
          · exact absurd h (hY' _)
          · exact absurd h (hY' _)
          · rwa [known_unique hz h]
          · exact absurd h (hY' _)
          · rw [known_unique hz h]; exact one_ne_zero
      | none =>
        have hX := not_known_of_none h3
        have hc' : Y.isC 1 = false := by
          rw [← Bool.not_eq_true, isC_known]; exact hY' _
        by_cases hc : Known Z 1
        · simp [hc', isC_known.2 hc, u, hc]
        · have hc2 : Z.isC 1 = false := by
            rw [← Bool.not_eq_true, isC_known]; exact hc
          simp [hc', hc2, fall, hX, hY', hc]
    | none =>
      have hZ := not_known_of_none h2
      have hc' : Y.isC 1 = false := by
        rw [← Bool.not_eq_true, isC_known]; exact hY' _
      have hc2 : Z.isC 1 = false := by
        rw [← Bool.not_eq_true, isC_known]; exact hZ _
      simp [hc', hc2, fall, hZ, hY']

/-- When a sum whose value is not a string, with at most one string summand, has answers. -/
theorem dAdd_ans {X Y Z : Arg} (hY : Y.strs = none ∨ Z.strs = none) (hX : X.strs = none) :
    (∃ l, dAdd rnd X Y Z = .ans l) ↔
      (∃ y z, Known Y y ∧ Known Z z) ∨ (∃ x y, Known X x ∧ Known Y y) ∨
      (∃ x z, Known X x ∧ Known Z z) ∨ Known Y 0 ∨ Known Z 0 := by
  have e : dAdd rnd X Y Z = (match Y.num, Z.num, X.num with
    | some y, some z, _ => u X (.val (padd rnd y z))
    | some y, none, some x => u Z (.val (psub rnd x y))
    | none, some z, some x => u Y (.val (psub rnd x z))
    | _, _, _ =>
      if Y.isC 0 then u X Z
      else if Z.isC 0 then u X Y
      else fall .add) := by
    unfold dAdd
    rw [hX]
    rcases hY with h | h <;> rw [h]
    all_goals first | rfl | (cases Y.strs <;> rfl)
  rw [e]
  cases h1 : Y.num with
  | some y =>
    obtain ⟨y', hy, hy'⟩ := known_of_some h1
    cases h2 : Z.num with
    | some z =>
      obtain ⟨z', hz, _⟩ := known_of_some h2
      exact ⟨fun _ => .inl ⟨_, _, hy, hz⟩, fun _ => u_ans _ _⟩
    | none =>
      have hZ := not_known_of_none h2
      cases h3 : X.num with
      | some x =>
        obtain ⟨x', hx, _⟩ := known_of_some h3
        exact ⟨fun _ => .inr (.inl ⟨_, _, hx, hy⟩), fun _ => u_ans _ _⟩
      | none =>
        have hX := not_known_of_none h3
        have hc2 : Z.isC 0 = false := by
          rw [← Bool.not_eq_true, isC_known]; exact hZ _
        by_cases hc : Known Y 0
        · simp [isC_known.2 hc, u, hc]
        · have hc' : Y.isC 0 = false := by
            rw [← Bool.not_eq_true, isC_known]; exact hc
          simp [hc', hc2, fall, hZ, hX, hc]
  | none =>
    have hY' := not_known_of_none h1
    have hc' : Y.isC 0 = false := by
      rw [← Bool.not_eq_true, isC_known]; exact hY' _
    cases h2 : Z.num with
    | some z =>
      obtain ⟨z', hz, hz'⟩ := known_of_some h2
      cases h3 : X.num with
      | some x =>
        obtain ⟨x', hx, _⟩ := known_of_some h3
        exact ⟨fun _ => .inr (.inr (.inl ⟨_, _, hx, hz⟩)), fun _ => u_ans _ _⟩
      | none =>
        have hX := not_known_of_none h3
        by_cases hc : Known Z 0
        · simp [hc', isC_known.2 hc, u, hc]
        · have hc2 : Z.isC 0 = false := by
            rw [← Bool.not_eq_true, isC_known]; exact hc
          simp [hc', hc2, fall, hX, hY', hc]
    | none =>
      have hZ := not_known_of_none h2
      have hc2 : Z.isC 0 = false := by
        rw [← Bool.not_eq_true, isC_known]; exact hZ _
      simp [hc', hc2, fall, hZ, hY']

theorem inst_known {σ : Nat → Option Val} {a : Arg} {q : ℚ} (h : Known a q) : Known (inst σ a) q := by
  obtain ⟨v, rfl, h⟩ := h; exact ⟨v, rfl, h⟩

theorem inst_strs {σ : Nat → Option Val} (hσ : Nums σ) (a : Arg) : (inst σ a).strs = a.strs := by
  cases a with
  | val v => rfl
  | var n =>
    simp only [inst]
    cases h : σ n with
    | none => rfl
    | some v =>
      obtain ⟨q, hq⟩ := hσ n v h
      exact known_strs (known_val.2 hq)

theorem dMul_inst {σ : Nat → Option Val} (hσ : Nums σ) {X Y Z : Arg}
    (h : ∃ l, dMul rnd X Y Z = .ans l) : ∃ l, dMul rnd (inst σ X) (inst σ Y) (inst σ Z) = .ans l := by
  cases hY : Y.strs with
  | none =>
    rw [dMul_ans hY] at h
    rw [dMul_ans ((inst_strs hσ Y).trans hY)]
    rcases h with ⟨a, b, h, h'⟩ | ⟨a, b, h, h', h0⟩ | ⟨a, b, h, h', h0⟩ | h | h
    · exact .inl ⟨a, b, inst_known h, inst_known h'⟩
    · exact .inr (.inl ⟨a, b, inst_known h, inst_known h', h0⟩)
    · exact .inr (.inr (.inl ⟨a, b, inst_known h, inst_known h', h0⟩))
    · exact .inr (.inr (.inr (.inl (inst_known h))))
    · exact .inr (.inr (.inr (.inr (inst_known h))))
  | some s =>
    obtain ⟨l, h⟩ := h
    unfold dMul at h ⊢
    rw [inst_strs hσ, hY]
    rw [hY] at h
    simp only at h ⊢
    cases hz : Z.num with
    | none => rw [hz] at h; cases h
    | some z =>
      have : (inst σ Z).num = some z := by have e := (arg_num_some hz).1; subst e; exact hz
      rw [this]
      rw [hz] at h
      simp only at h ⊢
      cases hi : int? z with
      | none => rw [hi] at h; cases h
      | some k => exact u_ans _ _

theorem dAdd_inst {σ : Nat → Option Val} (hσ : Nums σ) {X Y Z : Arg}
    (h : ∃ l, dAdd rnd X Y Z = .ans l) : ∃ l, dAdd rnd (inst σ X) (inst σ Y) (inst σ Z) = .ans l := by
  by_cases hYZ : Y.strs = none ∨ Z.strs = none
  · cases hX : X.strs with
    | none =>
      rw [dAdd_ans hYZ hX] at h
      rw [dAdd_ans (by rwa [inst_strs hσ, inst_strs hσ]) ((inst_strs hσ X).trans hX)]
      rcases h with ⟨a, b, h, h'⟩ | ⟨a, b, h, h'⟩ | ⟨a, b, h, h'⟩ | h | h
      · exact .inl ⟨a, b, inst_known h, inst_known h'⟩
      · exact .inr (.inl ⟨a, b, inst_known h, inst_known h'⟩)
      · exact .inr (.inr (.inl ⟨a, b, inst_known h, inst_known h'⟩))
      · exact .inr (.inr (.inr (.inl (inst_known h))))
      · exact .inr (.inr (.inr (.inr (inst_known h))))
    | some s =>
      unfold dAdd
      rw [inst_strs hσ, inst_strs hσ, inst_strs hσ, hX]
      cases Y.strs <;> cases Z.strs <;> simp [u]
  · cases hy : Y.strs with
    | none => exact absurd (.inl hy) hYZ
    | some s =>
      cases hz : Z.strs with
      | none => exact absurd (.inr hz) hYZ
      | some t =>
        unfold dAdd
        rw [inst_strs hσ, inst_strs hσ, hy, hz]
        exact u_ans _ _

theorem num_inst {σ : Nat → Option Val} {a : Arg} {v : Val} (h : a.num = some v) :
    (inst σ a).num = some v := by
  have e := (arg_num_some h).1
  subst e
  exact h

/-- **C43, readiness is stable.**  A query that is ready stays ready when more of its variables are bound
to numbers (so a scheduler may bind them first).  Negation of truth values is the exception, see
`C43_not_unready`. -/
theorem C43_ready_mono {σ : Nat → Option Val} (hσ : Nums σ) {X : Arg} {k : Expr}
    (hk : ∀ y, k ≠ .un .not y) (h : isReady rnd (.is X k) = some true) :
    isReady rnd (.is (inst σ X) (instE σ k)) = some true := by
  have hr : ∀ {q : Arg} {k : Expr}, isReady rnd (.is q k) = some true ↔
      ∃ l, dispatch rnd (.is q k) = .ans l := by
    intro q k
    simp only [isReady]
    cases dispatch rnd (.is q k) <;> simp
  rw [hr] at h ⊢
  cases k with
  | lit a => obtain ⟨l, h⟩ := h; cases h
  | un f y =>
    obtain ⟨l, h⟩ := h
    simp only [dispatch, instE, dUn] at h ⊢
    have two : ∀ {g : Val → Out} {g' : Val → Out} {d : Out} {f g2 g2' : Val → Out},
        (match y.num, X.num with
        | some y, _ => g y
        | none, some x => g' x
        | none, none => d) = .ans l → (∀ l, d ≠ .ans l) → (∀ v, ∃ l, g2 v = .ans l) →
        (∀ v, ∃ l, g2' v = .ans l) →
        ∃ l', (match (inst σ y).num, (inst σ X).num with
        | some y, _ => g2 y
        | none, some x => g2' x
        | none, none => d) = .ans l' := by
      intro g g' d f g2 g2' h hd hg hg'
      cases hy : y.num with
      | some v => rw [num_inst hy]; exact hg v
      | none =>
        cases hx : X.num with
        | some v =>
          rw [num_inst hx]
          cases (inst σ y).num with
          | some w => exact hg w
          | none => exact hg' v
        | none => rw [hy, hx] at h; exact absurd h (hd l)
    cases f with
    | sub => exact two (f := fun _ => .instFault) h (by simp [fall]) (fun v => u_ans _ _) (fun v => u_ans _ _)
    | add => exact two (f := fun _ => .instFault) h (by simp [fall]) (fun v => u_ans _ _) (fun v => u_ans _ _)
    | abs => exact two (f := fun _ => .instFault) h (by simp [fall]) (fun v => u_ans _ _) (fun v => ⟨_, rfl⟩)
    | str =>
      cases y with
      | val v => exact u_ans _ _
      | var n => simp [fall] at h
    | int =>
      cases y with
      | val v => exact u_ans _ _
      | var n =>
        exfalso
        cases X with
        | var m => simp [fall] at h
        | val v =>
          cases v with
          | bool b => cases b <;> simp [fall] at h
          | int z => simp [fall] at h
          | flt z => simp [fall] at h
          | str z => simp [fall] at h
    | not => exact absurd rfl (hk y)
    | _ => simp [fall] at h
  | bin f y z =>
    simp only [dispatch, instE, dBin] at h ⊢
    cases f with
    | mul => exact dMul_inst hσ h
    | add => exact dAdd_inst hσ h
    | div => exact dMul_inst hσ h
    | sub => exact dAdd_inst hσ h
    | min | max | lt | gt | ne | eq | le | ge =>
      obtain ⟨l, h⟩ := h
      cases y with
      | var n => simp [fall] at h
      | val v =>
        cases z with
        | var n => simp [fall] at h
        | val w =>
          simp only at h
          split at h
          · rename_i hb; simp only [inst, hb]; exact u_ans _ _
          · cases h
    | _ => obtain ⟨l, h⟩ := h; simp [fall] at h
  | tri f x a b =>
    obtain ⟨l, h⟩ := h
    simp only [dispatch, instE, dTri] at h ⊢
    split at h
    · rename_i a b _
      simp only [inst]
      split at h
      · exact ⟨_, rfl⟩
      · cases h
    · unfold fall at h; split at h <;> cases h

/-! #### Violations -/

/-- `-3 is abs(Y)` has the answers `Y = -3` and `Y = 3`, though no number has absolute value -3. -/
theorem C43_abs_negative :
    dispatch rnd (.is (.val (.int (-3))) (.un .abs (.var 0)))
      = .ans [[(0, .val (.int (-3)))], [(0, .val (.int 3))]] ∧
    ∀ y : ℚ, ¬ RelU .abs (-3) y := by
  refine ⟨rfl, fun y h => ?_⟩
  rcases h with ⟨h1, h2⟩ | ⟨h1, h2⟩ <;> linarith

/-- `5 is Y / 0` has the answer `Y = 0`, and `5 is 0 / Z` has the answer `Z = 0`: unsound, since division
by zero has no value. -/
theorem C43_div_zero :
    dispatch rnd (.is (.val (.int 5)) (.bin .div (.var 0) (.val (.int 0))))
      = .ans [[(0, .val (.int 0))]] ∧
    (∀ y : ℚ, ¬ Rel .div 5 y 0) ∧
    (rnd 0 = 0 → dispatch rnd (.is (.val (.int 5)) (.bin .div (.val (.int 0)) (.var 0)))
      = .ans [[(0, .val (.flt 0))]]) ∧
    ¬ Rel .div 5 0 0 := by
  refine ⟨by simp [dispatch, dBin, dMul, Arg.strs, Arg.num, num?, u, unify, walk, pmul, arith, int?],
    fun y h => h.1 rfl, fun h0 => ?_, fun h => h.1 rfl⟩
  simp [dispatch, dBin, dMul, Arg.strs, Arg.num, num?, u, uDiv, unify, walk, pdiv, int?, h0]

/-- `6 is Y * 0` and `X is 6 / 0` raise `ZeroDivisionError`; the first should just fail, and neither makes
`is_ready` say "not ready" (the exception escapes). -/
theorem C43_raises :
    dispatch rnd (.is (.val (.int 6)) (.bin .mul (.var 0) (.val (.int 0)))) = .zeroDiv ∧
    dispatch rnd (.is (.var 0) (.bin .div (.val (.int 6)) (.val (.int 0)))) = .zeroDiv ∧
    isReady rnd (.is (.val (.int 6)) (.bin .mul (.var 0) (.val (.int 0)))) = none ∧
    (∀ y : ℚ, ¬ Rel .mul 6 y 0) := by
  refine ⟨?_, ?_, ?_, fun y h => ?_⟩
  · simp [dispatch, dBin, dMul, Arg.strs, Arg.num, num?, uDiv]
  · simp [dispatch, dBin, dMul, Arg.strs, Arg.num, num?, uDiv]
  · simp [isReady, dispatch, dBin, dMul, Arg.strs, Arg.num, num?, uDiv]
  · simp [Rel] at h

/-- `X is "a" * Z` with `Z` not yet known raises `TypeError` instead of being delayed. -/
theorem C43_string_unready :
    isReady rnd (.is (.var 0) (.bin .mul (.val (.str ['a'])) (.var 1))) = none ∧
    isReady rnd (.is (.var 0) (.bin .mul (.val (.str ['a'])) (.val (.int 2)))) = some true := ⟨rfl, rfl⟩

/-- Asking whether `true is int(Y)` is ready never returns: the check runs the endless enumeration. -/
theorem C43_int_unready :
    isReady rnd (.is (.val (.bool true)) (.un .int (.var 0))) = none ∧
    ∃ f, dispatch rnd (.is (.val (.bool true)) (.un .int (.var 0))) = .enum f := ⟨rfl, _, rfl⟩

/-- `true is !Y` is ready, but is not any more once `Y` is bound to the number 3: the constraint is then
delayed for ever instead of failing. -/
theorem C43_not_unready :
    isReady rnd (.is (.val (.bool true)) (.un .not (.var 0))) = some true ∧
    isReady rnd (.is (.val (.bool true)) (.un .not (.val (.int 3)))) = some false := ⟨rfl, rfl⟩

/-- The identity shortcut accepts values that are no numbers: `X is 0 + Z` answers `X = Z` before `Z` is
known, also when `Z` turns out to be a string. -/
theorem C43_identity_string :
    dispatch rnd (.is (.var 0) (.bin .add (.val (.int 0)) (.var 1))) = .ans [[(0, .var 1)]] ∧
    dispatch rnd (.is (.var 0) (.bin .add (.val (.int 0)) (.val (.str ['a']))))
      = .ans [[(0, .val (.str ['a']))]] := by
  constructor <;>
    simp [dispatch, dBin, dAdd, Arg.strs, Arg.num, num?, u, unify, walk, Arg.isC]

/-- Float division loses integers: with any rounding that maps `2^53 + 1` to `2^53` (as doubles do),
`9007199254740993 is 1 * Z` answers `Z = 9007199254740992.0`. -/
theorem C43_float_division (h : rnd 9007199254740993 = 9007199254740992) :
    dispatch rnd (.is (.val (.int 9007199254740993)) (.bin .mul (.val (.int 1)) (.var 0)))
      = .ans [[(0, .val (.flt 9007199254740992))]] ∧
    ¬ Rel .mul 9007199254740993 1 9007199254740992 := by
  constructor
  · simp [dispatch, dBin, dMul, Arg.strs, Arg.num, num?, u, uDiv, unify, walk, pdiv, int?, h]
  · norm_num [Rel]

section Examples

/-- `7 is Y + 4`: one answer, `Y = 3`. -/
example : dispatch _root_.id (.is (.val (.int 7)) (.bin .add (.var 0) (.val (.int 4))))
    = .ans [[(0, .val (.int 3))]] := by
  simp [dispatch, dBin, dAdd, Arg.strs, Arg.num, num?, u, unify, walk, psub, arith, int?]

/-- `C43_arith` on `6 is 4 * Z`: `Z = 3/2` respects the answer. -/
example : ∃ l, dispatch _root_.id (.is (.val (.int 6)) (.bin .mul (.val (.int 4)) (.var 0))) = .ans l ∧
    Exactly (cnt (fun _ => .flt (3/2)) l) (Rel .mul 6 4 (3/2)) := by
  obtain ⟨l, hl⟩ := (C43_mode (rnd := _root_.id) (X := .val (.int 6)) (Y := .val (.int 4)) (Z := .var 0)
    (x := 6) (y := 4) (z := 0) rfl rfl rfl).2.2.1
    (.inr (.inl ⟨⟨_, rfl, rfl⟩, ⟨_, rfl, rfl⟩, by norm_num⟩))
  exact ⟨l, hl, C43_arith hl rfl rfl rfl (by simp) fun _ => rfl⟩

/-- `"ab" is Y + Z` has three answers. -/
example : dispatch rnd (.is (.val (.str ['a', 'b'])) (.bin .add (.var 0) (.var 1)))
    = .ans [[(0, .val (.str [])), (1, .val (.str ['a', 'b']))],
            [(0, .val (.str ['a'])), (1, .val (.str ['b']))],
            [(0, .val (.str ['a', 'b'])), (1, .val (.str []))]] := by
  rfl

/-- `"aa" is Y + Y` has one answer. -/
example : dispatch rnd (.is (.val (.str ['a', 'a'])) (.bin .add (.var 0) (.var 0)))
    = .ans [[(0, .val (.str ['a']))]] := by
  rfl

/-- `true is range(X, 2, 4)`. -/
example : dispatch rnd (.is (.val (.bool true)) (.tri .range (.var 0) (.val (.int 2)) (.val (.int 4))))
    = .ans [[(0, .val (.int 2))], [(0, .val (.int 3))]] := by
  rfl

end Examples

end Builtin
end Verif
