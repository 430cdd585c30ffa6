/-
Terms of `/repo/dyna/term.py` (classes `Var` lines 100-177 and `Term` lines 302-371), and the small
mathematical vocabulary (substitutions, variables, instances) used to *state* properties.
-/
import Mathlib.Data.Finset.Union
import Mathlib.Data.Finset.Lattice.Fold
import Mathlib.Data.List.Nodup
import Mathlib.Data.List.Forall2

set_option linter.unusedSectionVars false
set_option linter.unusedSimpArgs false

namespace Verif

/-- Constants inside terms: Python ints and strings up to `==`.  Other payloads are not modelled. -/
inductive Const
  | int (z : Int)
  | str (s : String)
deriving DecidableEq, Inhabited

/-- A term: a variable (its number stands for the identity of the `Var` object), a constant, or a
`Term` with its `fargs` tuple, functor first (term.py:313-314). -/
inductive Tm
  | var (n : Nat)
  | con (c : Const)
  | app (fargs : List Tm)
deriving Inhabited

namespace Tm

/-- Induction over terms with the hypothesis for every element of `fargs`. -/
theorem ind {P : Tm → Prop} (hv : ∀ n, P (.var n)) (hc : ∀ c, P (.con c))
    (ha : ∀ as, (∀ t ∈ as, P t) → P (.app as)) : ∀ t, P t := by
  intro t
  refine Tm.rec (motive_1 := P) (motive_2 := fun as => ∀ t ∈ as, P t) hv hc ha ?_ ?_ t
  · simp
  · intro a as h1 h2 t ht
    rcases List.mem_cons.1 ht with rfl | ht
    · exact h1
    · exact h2 t ht

mutual
/-- Boolean structural equality (variables by identity). -/
def beq : Tm → Tm → Bool
  | .var n, .var m => n == m
  | .con a, .con b => a == b
  | .app as, .app bs => beqL as bs
  | _, _ => false
def beqL : List Tm → List Tm → Bool
  | [], [] => true
  | a :: as, b :: bs => beq a b && beqL as bs
  | _, _ => false
end

theorem beq_iff (a : Tm) : ∀ b, beq a b = true ↔ a = b := by
  induction a using ind with
  | hv n => intro b; cases b <;> simp [beq]
  | hc n => intro b; cases b <;> simp [beq]
  | ha as ih =>
    intro b
    cases b with
    | var n => simp [beq]
    | con c => simp [beq]
    | app bs =>
      simp only [beq, Tm.app.injEq]
      induction as generalizing bs with
      | nil => cases bs <;> simp [beqL]
      | cons a as iha =>
        cases bs with
        | nil => simp [beqL]
        | cons b bs =>
          simp only [beqL, Bool.and_eq_true, List.cons.injEq]
          rw [ih a (by simp), iha (fun t ht => ih t (by simp [ht]))]

instance : DecidableEq Tm := fun a b => decidable_of_iff _ (beq_iff a b)

mutual
/-- Apply a (total) substitution to a term. -/
def sub (σ : Nat → Tm) : Tm → Tm
  | .var n => σ n
  | .con c => .con c
  | .app as => .app (subL σ as)
def subL (σ : Nat → Tm) : List Tm → List Tm
  | [] => []
  | a :: as => sub σ a :: subL σ as
end

mutual
/-- Variables occurring in a term. -/
def vars : Tm → Finset Nat
  | .var n => {n}
  | .con _ => ∅
  | .app as => varsL as
def varsL : List Tm → Finset Nat
  | [] => ∅
  | a :: as => vars a ∪ varsL as
end

mutual
/-- Number of nodes. -/
def size : Tm → Nat
  | .var _ => 1
  | .con _ => 1
  | .app as => 1 + sizeL as
def sizeL : List Tm → Nat
  | [] => 1
  | a :: as => 1 + size a + sizeL as
end

theorem subL_eq_map (σ : Nat → Tm) (as : List Tm) : subL σ as = as.map (sub σ) := by
  induction as with
  | nil => rfl
  | cons a as ih => simp [subL, ih]

@[simp] theorem sub_var (σ : Nat → Tm) (n : Nat) : sub σ (.var n) = σ n := by simp [sub]
@[simp] theorem sub_con (σ : Nat → Tm) (c : Const) : sub σ (.con c) = .con c := by simp [sub]
@[simp] theorem sub_app (σ : Nat → Tm) (as : List Tm) : sub σ (.app as) = .app (as.map (sub σ)) := by
  simp [sub, subL_eq_map]

@[simp] theorem vars_var (n : Nat) : vars (.var n) = {n} := by simp [vars]
@[simp] theorem vars_con (c : Const) : vars (.con c) = ∅ := by simp [vars]
@[simp] theorem vars_app (as : List Tm) : vars (.app as) = varsL as := by simp [vars]
@[simp] theorem varsL_nil : varsL [] = ∅ := by simp [varsL]
@[simp] theorem varsL_cons (a : Tm) (as : List Tm) : varsL (a :: as) = vars a ∪ varsL as := by
  simp [varsL]

@[simp] theorem size_app (as : List Tm) : size (.app as) = 1 + sizeL as := by simp [size]
@[simp] theorem sizeL_nil : sizeL [] = 1 := by simp [sizeL]
@[simp] theorem sizeL_cons (a : Tm) (as : List Tm) : sizeL (a :: as) = 1 + size a + sizeL as := by
  simp [sizeL]

theorem mem_varsL {x : Nat} {as : List Tm} : x ∈ varsL as ↔ ∃ a ∈ as, x ∈ vars a := by
  induction as with
  | nil => simp
  | cons a as ih => simp [ih]

theorem size_pos (t : Tm) : 0 < size t := by cases t <;> simp [size] <;> omega
theorem sizeL_pos (t : List Tm) : 0 < sizeL t := by cases t <;> simp [sizeL] <;> omega

/-- Substitution depends only on the values at occurring variables. -/
theorem sub_congr {σ τ : Nat → Tm} {t : Tm} (h : ∀ x ∈ vars t, σ x = τ x) : sub σ t = sub τ t := by
  induction t using ind with
  | hv n => simpa using h
  | hc c => simp
  | ha as ih =>
    simp only [sub_app, Tm.app.injEq]
    apply List.map_congr_left
    intro a ha
    exact ih a ha (fun x hx => h x (by simp only [vars_app, mem_varsL]; exact ⟨a, ha, hx⟩))

theorem sub_id (t : Tm) : sub .var t = t := by
  induction t using ind with
  | hv n => simp
  | hc c => simp
  | ha as ih =>
    simp only [sub_app, Tm.app.injEq]
    conv_rhs => rw [← List.map_id as]
    exact List.map_congr_left fun a ha => ih a ha

theorem sub_sub (σ τ : Nat → Tm) (t : Tm) : sub τ (sub σ t) = sub (fun n => sub τ (σ n)) t := by
  induction t using ind with
  | hv n => simp
  | hc c => simp
  | ha as ih =>
    simp only [sub_app, Tm.app.injEq, List.map_map]
    exact List.map_congr_left fun a ha => ih a ha

theorem mem_vars_sub {σ : Nat → Tm} {t : Tm} {x : Nat} :
    x ∈ vars (sub σ t) ↔ ∃ y ∈ vars t, x ∈ vars (σ y) := by
  induction t using ind with
  | hv n => simp
  | hc c => simp
  | ha as ih =>
    simp only [sub_app, vars_app, mem_varsL, List.mem_map]
    constructor
    · rintro ⟨_, ⟨a, ha, rfl⟩, hx⟩
      obtain ⟨y, hy, hxy⟩ := (ih a ha).1 hx
      exact ⟨y, ⟨a, ha, hy⟩, hxy⟩
    · rintro ⟨y, ⟨a, ha, hy⟩, hxy⟩
      exact ⟨_, ⟨a, ha, rfl⟩, (ih a ha).2 ⟨y, hy, hxy⟩⟩

/-- If two substitutions agree on a term they agree on its variables. -/
theorem sub_eq_on_vars {σ τ : Nat → Tm} {t : Tm} (h : sub σ t = sub τ t) :
    ∀ x ∈ vars t, σ x = τ x := by
  induction t using ind with
  | hv n => simpa using h
  | hc c => simp
  | ha as ih =>
    simp only [sub_app, Tm.app.injEq] at h
    intro x hx
    simp only [vars_app, mem_varsL] at hx
    obtain ⟨a, ha, hx⟩ := hx
    exact ih a ha (List.map_inj_left.1 h a ha) x hx

/-- A strict subterm position makes the substituted term strictly bigger: no finite term
contains itself. -/
theorem size_le_sub {σ : Nat → Tm} {t : Tm} {x : Nat} (hx : x ∈ vars t) :
    size (σ x) ≤ size (sub σ t) ∧ (t ≠ .var x → size (σ x) < size (sub σ t)) := by
  induction t using ind with
  | hv n => simp at hx; subst hx; simp
  | hc c => simp at hx
  | ha as ih =>
    simp only [vars_app, mem_varsL] at hx
    obtain ⟨a, ha, hx⟩ := hx
    have h1 := (ih a ha hx).1
    have h2 : size (sub σ a) < size (sub σ (.app as)) := by
      simp only [sub_app, size_app]
      have : ∀ l : List Tm, a ∈ l → size (sub σ a) < sizeL (l.map (sub σ)) := by
        intro l
        induction l with
        | nil => simp
        | cons b l ihl =>
          intro hm
          simp only [List.map_cons, sizeL_cons]
          rcases List.mem_cons.1 hm with rfl | hm
          · have := sizeL_pos (l.map (sub σ)); omega
          · have := ihl hm; omega
      have := this as ha
      omega
    exact ⟨by omega, fun _ => by omega⟩

/-- `t` is ground: it has no variables. -/
def Ground (t : Tm) : Prop := vars t = ∅

/-- `t` is an instance of `p`. -/
def InstanceOf (t p : Tm) : Prop := ∃ σ, sub σ p = t

/-- A one-to-one renaming of the variables of `t` turns `t` into `u`. -/
def Variant (t u : Tm) : Prop :=
  ∃ f : Nat → Nat, Set.InjOn f (vars t) ∧ u = sub (fun n => .var (f n)) t

end Tm
end Verif
