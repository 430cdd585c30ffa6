/-
Property C92: lifting a program into another semiring.
-/
import Verif.LiftSemi
import Verif.UnfoldLift

set_option linter.unusedSectionVars false
set_option linter.unusedSimpArgs false

namespace Verif
open Tm

namespace LiftSemi
open Sem

/-! ### Specification -/

/-- homomorphisms that keep sums of all families -/
structure Hom {K W : Type} [CSemi K] [CSemi W] (φ : K → W) : Prop where
  one : φ 1 = 1
  mul : ∀ a b, φ (a * b) = φ a * φ b
  isum : ∀ {ι : Type} (f : ι → K), φ (isum f) = isum fun i => φ (f i)

section
variable {K W : Type} [CSemi K] [CSemi W] {φ : K → W}

theorem Hom.zero (h : Hom φ) : φ 0 = 0 := by
  have := h.isum (fun e : Empty => e.elim)
  rwa [isum_empty, isum_empty] at this

theorem Hom.add (h : Hom φ) (a b : K) : φ (a + b) = φ a + φ b := by
  have := h.isum (Sum.elim (fun _ : Unit => a) fun _ : Unit => b)
  rw [isum_sum, isum_sum, isum_unit, isum_unit, isum_unit, isum_unit] at this
  exact this

theorem Hom.sum (h : Hom φ) (l : List K) : φ l.sum = (l.map φ).sum := by
  induction l with
  | nil => exact h.zero
  | cons a l ih => rw [List.sum_cons, h.add, ih, List.map_cons, List.sum_cons]

theorem Hom.prod (h : Hom φ) (l : List K) : φ l.prod = (l.map φ).prod := by
  induction l with
  | nil => exact h.one
  | cons a l ih => rw [List.prod_cons, h.mul, ih, List.map_cons, List.prod_cons]

theorem liftRule_eq {ψ : K → Tm → W} (hψ : ∀ k t, ψ k t = φ k) (r : WRule K) : liftRule ψ r = Unfold.mapRule φ r := by
  simp only [liftRule, Unfold.mapRule, WRule.mk.injEq, true_and]
  refine List.map_congr_left fun z _ => ?_
  cases z with
  | val k => simp [Unfold.mapLit, hψ]
  | sub t => rfl

theorem Hom.bv (h : Hom φ) (v : GTm → K) (θ : Nat → GTm) (b : List (Lit K)) : Sem.bv (fun x => φ (v x)) θ (b.map (Unfold.mapLit φ)) = φ (Sem.bv v θ b) := by
  unfold Sem.bv
  rw [h.prod, List.map_map, List.map_map]
  refine congrArg _ (List.map_congr_left fun z _ => ?_)
  cases z <;> rfl

theorem Hom.contrib (h : Hom φ) (r : WRule K) (v : GTm → K) (x : GTm) : Sem.contrib (Unfold.mapRule φ r) (fun x => φ (v x)) x = φ (Sem.contrib r v x) := by
  classical
  rw [Unfold.contrib_lift_eq, Sem.contrib, h.isum]
  refine isum_congr fun a => ?_
  by_cases e : gsub (ext a) r.head = x
  · simp only [e, if_true]
    exact h.bv _ _ _
  · simp only [e, if_false]
    exact h.zero.symm

theorem Hom.T (h : Hom φ) {ψ : K → Tm → W} (hψ : ∀ k t, ψ k t = φ k) (p : List (WRule K)) (v : GTm → K) (x : GTm) :
    Sem.T (liftProg ψ p) (fun x => φ (v x)) x = φ (Sem.T p v x) := by
  unfold Sem.T liftProg
  rw [h.sum, List.map_map, List.map_map]
  refine congrArg _ (List.map_congr_left fun r _ => ?_)
  simp only [Function.comp_apply, liftRule_eq hψ]
  exact h.contrib r v x

theorem Hom.rounds (h : Hom φ) {ψ : K → Tm → W} (hψ : ∀ k t, ψ k t = φ k) (p : List (WRule K)) (d : GTm → K) : ∀ (n : Nat) (x : GTm),
    Sem.rounds (liftProg ψ p) (fun x => φ (d x)) n x = φ (Sem.rounds p d n x)
  | 0, _ => h.zero.symm
  | n + 1, x => by
    have : Sem.rounds (liftProg ψ p) (fun x => φ (d x)) n = fun x => φ (Sem.rounds p d n x) := funext fun x => Hom.rounds h hψ p d n x
    simp only [Sem.rounds]
    rw [this, h.T hψ, h.add]

/-- If `lift` is a homomorphism that keeps infinite sums and does not look at the head, lifting a program changes values as it changes constants: one step, every round
of naive evaluation and every solution. -/
theorem C92_values (h : Hom φ) {ψ : K → Tm → W} (hψ : ∀ k t, ψ k t = φ k) (p : List (WRule K)) (d : GTm → K) :
    (∀ v x, T (liftProg ψ p) (fun x => φ (v x)) x = φ (T p v x)) ∧
    (∀ n x, rounds (liftProg ψ p) (fun x => φ (d x)) n x = φ (rounds p d n x)) ∧
    ∀ v, Sol p d v → Sol (liftProg ψ p) (fun x => φ (d x)) fun x => φ (v x) :=
  ⟨h.T hψ p, h.rounds hψ p d, fun v hv x => by rw [h.T hψ, ← h.add, ← hv x]⟩

end

/-- no zero divisors, and no sum is zero but that of zeros -/
structure Positive (K : Type) [CSemi K] : Prop where
  one : (1 : K) ≠ 0
  mul : ∀ a b : K, a * b = 0 → a = 0 ∨ b = 0
  isum : ∀ {ι : Type} (f : ι → K), isum f = 0 → ∀ i, f i = 0

section
variable {K : Type} [CSemi K]

open Classical in
/-- whether a weight is other than zero -/
noncomputable def nonzero (k : K) : TV := if k = 0 then .f else .t

theorem nonzero_t (k : K) : nonzero k = .t ↔ k ≠ 0 := by
  unfold nonzero; split <;> simp_all

theorem nonzero_hom (h : Positive K) : Hom (nonzero : K → TV) := by
  refine ⟨TV.ext_iff' ?_, fun a b => TV.ext_iff' ?_, fun f => TV.ext_iff' ?_⟩
  · rw [nonzero_t]; exact iff_of_true h.one rfl
  · rw [TV.mul_iff, nonzero_t, nonzero_t, nonzero_t]
    constructor
    · intro hn
      exact ⟨fun e => hn (by rw [e, zero_mul]), fun e => hn (by rw [e, mul_zero])⟩
    · rintro ⟨h1, h2⟩ e
      exact (h.mul a b e).elim h1 h2
  · refine (nonzero_t _).trans (Iff.trans ?_ (TV.any_iff _).symm)
    simp only [nonzero_t]
    constructor
    · intro hn
      by_contra hc
      push Not at hc
      exact hn (by rw [show f = fun _ => 0 from funext hc]; exact isum_zero)
    · rintro ⟨i, hi⟩ e
      exact hi (h.isum f e i)

/-- Lifted to truth values, a program says which items have a value other than zero: in each round those that are true. -/
theorem C92_support (h : Positive K) (p : List (WRule K)) (d : GTm → K) (n : Nat) (x : GTm) :
    rounds (liftProg (fun k _ => nonzero k) p) (fun x => nonzero (d x)) n x = .t ↔ rounds p d n x ≠ 0 := by
  rw [(nonzero_hom h).rounds (ψ := fun k _ => nonzero k) (fun _ _ => rfl), nonzero_t]

end

section
variable {S C : Type}

/-- the constants of `p` are `lift`ed into `s` each with the head of its rule, and nothing else is changed -/
def LiftOf (φ : S → C → Tm → C) (s : S) (p q : SProg S C) : Prop :=
  q.semiring = some s ∧ List.Forall₂ (fun r r' : WRule C => r'.head = r.head ∧
    List.Forall₂ (fun z z' => (∃ k, z = Lit.val k ∧ z' = .val (φ s k r.head)) ∨ ∃ t, z = .sub t ∧ z' = .sub t) r.body r'.body) p.rules q.rules

theorem liftOf (φ : S → C → Tm → C) (s : S) (p : SProg S C) : LiftOf φ s p (p.lift φ (some s)) := by
  refine ⟨rfl, ?_⟩
  simp only [SProg.lift, liftProg]
  rw [List.forall₂_map_right_iff, List.forall₂_same]
  intro r _
  refine ⟨rfl, ?_⟩
  simp only [liftRule]
  rw [List.forall₂_map_right_iff, List.forall₂_same]
  intro z _
  cases z with
  | val k => exact .inl ⟨k, rfl, rfl⟩
  | sub t => exact .inr ⟨t, rfl, rfl⟩

/-- `lift_semiring` lifts every constant, with the head of its rule, and nothing else; lifted into no semiring, the rules stay as they are. -/
theorem C92_lift (φ : S → C → Tm → C) (p : SProg S C) : (∀ s, LiftOf φ s p (p.lift φ (some s))) ∧ p.lift φ none = ⟨none, p.rules⟩ :=
  ⟨fun s => liftOf φ s p, rfl⟩

/-- After `_coerce_semirings` both programs have the same semiring, unless they had different ones.  A program that has a semiring stays as it is; one that has none is
lifted if the other one has one. -/
theorem C92_coerce (φ : S → C → Tm → C) (p q : SProg S C) :
    ((coerce φ p q).1.semiring = (coerce φ p q).2.semiring ↔ ¬ ∃ s t, p.semiring = some s ∧ q.semiring = some t ∧ s ≠ t) ∧
    (p.semiring.isSome ∨ q.semiring = none → (coerce φ p q).1 = p) ∧ (q.semiring.isSome ∨ p.semiring = none → (coerce φ p q).2 = q) ∧
    (∀ s, p.semiring = none → q.semiring = some s → LiftOf φ s p (coerce φ p q).1) ∧
    ∀ s, p.semiring = some s → q.semiring = none → LiftOf φ s q (coerce φ p q).2 := by
  obtain ⟨a, rs⟩ := p
  obtain ⟨b, rs'⟩ := q
  cases a with
  | none =>
    cases b with
    | none => simp [coerce, SProg.lift]
    | some s =>
      have := liftOf φ s ⟨none, rs⟩
      simp only [SProg.lift] at this
      simp [coerce, SProg.lift, this]
  | some s =>
    cases b with
    | none =>
      have := liftOf φ s ⟨none, rs'⟩
      simp only [SProg.lift] at this
      simp [coerce, SProg.lift, this]
    | some t => simp [coerce, SProg.lift]

end

section Examples

private def at' (s : String) (ts : List Tm) : Tm := .app (.con (.str s) :: ts)

theorem positive_ennreal : Positive ENNReal :=
  ⟨one_ne_zero, fun _ _ h => mul_eq_zero.1 h, fun f h i => by
    have h : ∑' i, f i = 0 := h
    rw [ENNReal.tsum_eq_zero] at h
    exact h i⟩

-- the hypotheses of `C92_values` and `C92_support`: weights to truth values, `a(X) += 2*a(s(X)).  a(0) += 0.5*b(Y).`
noncomputable example (d : GTm → ENNReal) (n : Nat) (x : GTm) :=
  C92_support positive_ennreal [⟨at' "a" [.var 0], [.val 2, .sub (at' "a" [at' "s" [.var 0]])]⟩, ⟨at' "a" [.con (.int 0)], [.val (1/2), .sub (at' "b" [.var 1])]⟩] d n x

/-- lifting that depends on the head: costs of facts only -/
private def tag (s : Nat) (k : ℤ) (h : Tm) : ℤ := if h = at' "a" [] then k * s else k

-- the program without semiring is lifted, the other one is not
example : (coerce tag ⟨none, [⟨at' "a" [], [.val 3, .sub (at' "b" [])]⟩, ⟨at' "b" [], [.val 3]⟩]⟩ ⟨some 2, [⟨at' "a" [], [.val 3]⟩]⟩).1.rules =
    [⟨at' "a" [], [.val 6, .sub (at' "b" [])]⟩, ⟨at' "b" [], [.val 3]⟩] := by decide +kernel
example : (coerce tag ⟨none, [⟨at' "a" [], [.val 3, .sub (at' "b" [])]⟩, ⟨at' "b" [], [.val 3]⟩]⟩ ⟨some 2, [⟨at' "a" [], [.val 3]⟩]⟩).2.rules =
    [⟨at' "a" [], [.val 3]⟩] := by decide +kernel

end Examples

end LiftSemi
end Verif
