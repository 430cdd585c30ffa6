/-
Property C22 (matrix closure solves its equation) .
-/
import Verif.Kleene
import Mathlib.Algebra.BigOperators.Fin
import Mathlib.Algebra.BigOperators.Ring.Finset
import Mathlib.Algebra.Order.BigOperators.Group.Finset
import Mathlib.Algebra.Order.Ring.Defs
import Mathlib.Data.Matrix.Mul
import Mathlib.Algebra.Order.Field.Rat
import Mathlib.Tactic.Abel
import Mathlib.Tactic.NormNum
import Mathlib.Tactic.FinCases

set_option linter.unusedSectionVars false
set_option linter.unusedSimpArgs false

namespace Verif
namespace Kleene
open Finset
variable {R : Type*} [Semiring R] {N : Nat}

/-- `star` satisfies its right fixpoint equation at every pivot met by the loop over `l`. -/
def PivotsR (star : R → R) : List (Fin N) → (Fin N → Fin N → R) → Prop
  | [], _ => True
  | j :: l, A => star (A j j) = 1 + A j j * star (A j j) ∧ PivotsR star l (pivot star A j)

/-- `star` satisfies its left fixpoint equation at every pivot met by the loop over `l`. -/
def PivotsL (star : R → R) : List (Fin N) → (Fin N → Fin N → R) → Prop
  | [], _ => True
  | j :: l, A => star (A j j) = 1 + star (A j j) * A j j ∧ PivotsL star l (pivot star A j)

theorem loop_right (star : R → R) (A : Fin N → Fin N → R) (l : List (Fin N)) :
    ∀ (S : Finset (Fin N)) (M : Fin N → Fin N → R), l.Nodup → (∀ j ∈ l, j ∉ S) → PivotsR star l M →
      (∀ i k, M i k = A i k + ∑ j ∈ S, A i j * M j k) →
      ∀ i k, l.foldl (pivot star) M i k
        = A i k + ∑ j ∈ S ∪ l.toFinset, A i j * l.foldl (pivot star) M j k := by
  induction l with
  | nil => intro S M _ _ _ h i k; simpa using h i k
  | cons p l ih =>
    intro S M hnd hS hP h i k
    obtain ⟨hs, hP⟩ := hP
    rw [List.nodup_cons] at hnd
    have hpS : p ∉ S := hS p (by simp)
    have hstep : ∀ i k, pivot star M p i k
        = A i k + ∑ j ∈ insert p S, A i j * pivot star M p j k := by
      intro i k
      rw [sum_insert hpS]
      simp only [pivot]
      set s := star (M p p) with hsdef
      have e1 : ∑ x ∈ S, A i x * (M x k + M x p * s * M p k)
          = ∑ x ∈ S, A i x * M x k + (∑ x ∈ S, A i x * M x p) * s * M p k := by
        simp only [mul_add, sum_add_distrib, sum_mul, mul_assoc]
      have e2 : A i p * (M p k + M p p * s * M p k) = A i p * s * M p k := by
        conv_rhs => rw [hs]
        simp only [mul_add, add_mul, mul_assoc, mul_one, one_mul]
      rw [e1, e2]
      have hk := h i k
      have hp := h i p
      calc M i k + M i p * s * M p k
          = (A i k + ∑ j ∈ S, A i j * M j k) + (A i p + ∑ j ∈ S, A i j * M j p) * s * M p k := by
            rw [← hk, ← hp]
        _ = _ := by rw [add_mul, add_mul]; abel
    have := ih (insert p S) (pivot star M p) hnd.2 (by
      intro j hj hjS
      rcases mem_insert.1 hjS with rfl | hjS
      · exact hnd.1 hj
      · exact hS j (by simp [hj]) hjS) hP hstep i k
    simp only [List.foldl_cons, List.toFinset_cons]
    rw [this]
    congr 1
    apply sum_congr _ (fun _ _ => rfl)
    ext x; simp [or_left_comm, or_assoc]

theorem loop_left (star : R → R) (A : Fin N → Fin N → R) (l : List (Fin N)) :
    ∀ (S : Finset (Fin N)) (M : Fin N → Fin N → R), l.Nodup → (∀ j ∈ l, j ∉ S) → PivotsL star l M →
      (∀ i k, M i k = A i k + ∑ j ∈ S, M i j * A j k) →
      ∀ i k, l.foldl (pivot star) M i k
        = A i k + ∑ j ∈ S ∪ l.toFinset, l.foldl (pivot star) M i j * A j k := by
  induction l with
  | nil => intro S M _ _ _ h i k; simpa using h i k
  | cons p l ih =>
    intro S M hnd hS hP h i k
    obtain ⟨hs, hP⟩ := hP
    rw [List.nodup_cons] at hnd
    have hpS : p ∉ S := hS p (by simp)
    have hstep : ∀ i k, pivot star M p i k
        = A i k + ∑ j ∈ insert p S, pivot star M p i j * A j k := by
      intro i k
      rw [sum_insert hpS]
      simp only [pivot]
      set s := star (M p p) with hsdef
      have e1 : ∑ x ∈ S, (M i x + M i p * s * M p x) * A x k
          = ∑ x ∈ S, M i x * A x k + M i p * s * (∑ x ∈ S, M p x * A x k) := by
        simp only [add_mul, sum_add_distrib, mul_sum, mul_assoc]
      have e2 : (M i p + M i p * s * M p p) * A p k = M i p * s * A p k := by
        conv_rhs => rw [hs]
        simp only [mul_add, add_mul, mul_assoc, mul_one, one_mul]
      rw [e1, e2]
      have hk := h i k
      have hp := h p k
      calc M i k + M i p * s * M p k
          = (A i k + ∑ j ∈ S, M i j * A j k) + M i p * s * (A p k + ∑ j ∈ S, M p j * A j k) := by
            rw [← hk, ← hp]
        _ = _ := by rw [mul_add]; abel
    have := ih (insert p S) (pivot star M p) hnd.2 (by
      intro j hj hjS
      rcases mem_insert.1 hjS with rfl | hjS
      · exact hnd.1 hj
      · exact hS j (by simp [hj]) hjS) hP hstep i k
    simp only [List.foldl_cons, List.toFinset_cons]
    rw [this]
    congr 1
    apply sum_congr _ (fun _ _ => rfl)
    ext x; simp [or_left_comm, or_assoc]

theorem kleene_refl_eq (star : R → R) (A : Fin N → Fin N → R) :
    Matrix.of (kleene star A) = Matrix.of (loop star A) + 1 := by
  ext i k
  by_cases h : i = k
  · subst h; simp [kleene]
  · simp [kleene, h]

/-! ### Property C22 -/

/-- C22, transitive variant: `B = kleene(A, reflexive=False)` satisfies `B = A + A·B`. -/
theorem C22_transitive_right (star : R → R) (A : Fin N → Fin N → R)
    (h : PivotsR star (List.finRange N) A) :
    Matrix.of (kleene star A false)
      = Matrix.of A + Matrix.of A * Matrix.of (kleene star A false) := by
  ext i k
  have := loop_right star A (List.finRange N) ∅ A (List.nodup_finRange N) (by simp) h (by simp) i k
  simp only [empty_union, List.toFinset_finRange] at this
  simpa [kleene, Matrix.mul_apply, loop] using this

/-- C22, transitive variant, other side: `B = A + B·A`. -/
theorem C22_transitive_left (star : R → R) (A : Fin N → Fin N → R)
    (h : PivotsL star (List.finRange N) A) :
    Matrix.of (kleene star A false)
      = Matrix.of A + Matrix.of (kleene star A false) * Matrix.of A := by
  ext i k
  have := loop_left star A (List.finRange N) ∅ A (List.nodup_finRange N) (by simp) h (by simp) i k
  simp only [empty_union, List.toFinset_finRange] at this
  simpa [kleene, Matrix.mul_apply, loop] using this

/-- C22: `B = kleene(A)` satisfies `B = I + A·B`. -/
theorem C22_right (star : R → R) (A : Fin N → Fin N → R) (h : PivotsR star (List.finRange N) A) :
    Matrix.of (kleene star A) = 1 + Matrix.of A * Matrix.of (kleene star A) := by
  have h1 := C22_transitive_right star A h
  have h2 : Matrix.of (kleene star A false) = Matrix.of (loop star A) := rfl
  rw [h2] at h1
  rw [kleene_refl_eq, mul_add, mul_one, add_comm (_ * _), ← h1, add_comm]

/-- C22: `B = kleene(A)` satisfies `B = I + B·A`. -/
theorem C22_left (star : R → R) (A : Fin N → Fin N → R) (h : PivotsL star (List.finRange N) A) :
    Matrix.of (kleene star A) = 1 + Matrix.of (kleene star A) * Matrix.of A := by
  have h1 := C22_transitive_left star A h
  have h2 : Matrix.of (kleene star A false) = Matrix.of (loop star A) := rfl
  rw [h2] at h1
  rw [kleene_refl_eq, add_mul, one_mul, add_comm (_ * _), ← h1, add_comm]

section Least
variable [Preorder R] [AddLeftMono R] [AddRightMono R] [MulLeftMono R]

theorem loop_least (star : R → R) (X v : Fin N → R) (l : List (Fin N)) :
    (∀ a, star a = 1 + star a * a) → (∀ a b x : R, b + a * x ≤ x → star a * b ≤ x) →
    ∀ (S : Finset (Fin N)) (M : Fin N → Fin N → R), l.Nodup → (∀ j ∈ l, j ∉ S) →
      (∀ i, v i + ∑ j ∈ S, M i j * v j + ∑ j ∈ univ \ S, M i j * X j ≤ X i) →
      ∀ i, v i + ∑ j ∈ S ∪ l.toFinset, l.foldl (pivot star) M i j * v j
        + ∑ j ∈ univ \ (S ∪ l.toFinset), l.foldl (pivot star) M i j * X j ≤ X i := by
  intro hstar hind
  induction l with
  | nil => intro S M _ _ h i; simpa using h i
  | cons p l ih =>
    intro S M hnd hS h i
    rw [List.nodup_cons] at hnd
    have hpS : p ∉ S := hS p (by simp)
    have hsplit : ∀ f : Fin N → R, ∑ j ∈ univ \ S, f j = f p + ∑ j ∈ univ \ insert p S, f j := by
      intro f
      rw [← sum_insert (s := univ \ insert p S) (a := p) (by simp)]
      apply sum_congr _ (fun _ _ => rfl)
      ext x; by_cases hx : x = p <;> simp [hx, hpS]
    have hstep : ∀ i, v i + ∑ j ∈ insert p S, pivot star M p i j * v j
        + ∑ j ∈ univ \ insert p S, pivot star M p i j * X j ≤ X i := by
      intro i
      set s := star (M p p) with hsdef
      set c := v p + ∑ j ∈ S, M p j * v j + ∑ j ∈ univ \ insert p S, M p j * X j with hc
      have hX : s * c ≤ X p := by
        apply hind
        have := h p
        rw [hsplit] at this
        refine le_trans (le_of_eq ?_) this
        rw [hc]; abel
      have hi := h i
      rw [hsplit] at hi
      refine le_trans ?_ hi
      have hm : M i p * (s * c) ≤ M i p * X p := mul_le_mul_right hX _
      have e0 : v i + ∑ j ∈ insert p S, pivot star M p i j * v j
          + ∑ j ∈ univ \ insert p S, pivot star M p i j * X j
          = v i + ∑ j ∈ S, M i j * v j + (M i p * (s * c) + ∑ j ∈ univ \ insert p S, M i j * X j) := by
        rw [sum_insert hpS]
        simp only [pivot, ← hsdef]
        have e2 : (M i p + M i p * s * M p p) * v p = M i p * s * v p := by
          conv_rhs => rw [hsdef, hstar (M p p), ← hsdef]
          simp only [mul_add, add_mul, mul_assoc, mul_one, one_mul]
        have e3 : ∑ x ∈ S, (M i x + M i p * s * M p x) * v x
            = ∑ x ∈ S, M i x * v x + M i p * s * (∑ x ∈ S, M p x * v x) := by
          simp only [add_mul, sum_add_distrib, mul_sum, mul_assoc]
        have e4 : ∑ x ∈ univ \ insert p S, (M i x + M i p * s * M p x) * X x
            = ∑ x ∈ univ \ insert p S, M i x * X x
              + M i p * s * (∑ x ∈ univ \ insert p S, M p x * X x) := by
          simp only [add_mul, sum_add_distrib, mul_sum, mul_assoc]
        rw [e2, e3, e4, hc, mul_add, mul_add, mul_add, mul_add]
        simp only [← mul_assoc]
        abel
      rw [e0]
      gcongr
    have := ih (insert p S) (pivot star M p) hnd.2 (by
      intro j hj hjS
      rcases mem_insert.1 hjS with rfl | hjS
      · exact hnd.1 hj
      · exact hS j (by simp [hj]) hjS) hstep i
    have hset : insert p S ∪ l.toFinset = S ∪ (p :: l).toFinset := by
      ext x; simp [or_left_comm, or_assoc]
    rw [hset] at this
    simpa only [List.foldl_cons] using this

/-- C22, least solution: if `star a * b` is below every `x` with `b + a·x ≤ x`, then `kleene(A)·v`
is below every `X` with `v + A·X ≤ X`. -/
theorem C22_least (star : R → R) (hstar : ∀ a, star a = 1 + star a * a)
    (hind : ∀ a b x : R, b + a * x ≤ x → star a * b ≤ x)
    (A : Fin N → Fin N → R) (v X : Fin N → R)
    (hX : ∀ i, v i + (Matrix.of A).mulVec X i ≤ X i) (i : Fin N) :
    (Matrix.of (kleene star A)).mulVec v i ≤ X i := by
  have := loop_least star X v (List.finRange N) hstar hind ∅ A (List.nodup_finRange N) (by simp)
    (by intro i; simpa [Matrix.mulVec, dotProduct] using hX i) i
  rw [kleene_refl_eq, Matrix.add_mulVec, Matrix.one_mulVec]
  simp only [empty_union, List.toFinset_finRange, sdiff_self, sum_empty, add_zero] at this
  rw [Pi.add_apply, add_comm]
  simpa [Matrix.mulVec, dotProduct, loop] using this

end Least

/-! #### The linear solver -/
section Linsolve
variable {ι : Type*} [DecidableEq ι]

theorem intern_sub (ix : List ι) (x : ι) : x ∈ intern ix x ∧ ∀ y ∈ ix, y ∈ intern ix x := by
  unfold intern; split <;> simp_all

theorem intern_nodup {ix : List ι} (h : ix.Nodup) (x : ι) : (intern ix x).Nodup := by
  unfold intern; split
  · exact h
  · rename_i hx; rw [List.nodup_append]; refine ⟨h, by simp, ?_⟩
    intro a ha b hb; simp at hb; subst hb; rintro rfl; exact hx ha

theorem alphabet_spec {R : Type*} (M : Dict (ι × ι) R) (V : Dict ι R) :
    (alphabet M V).Nodup ∧ (∀ x ∈ V.keys, x ∈ alphabet M V) ∧
      ∀ ij ∈ M.keys, ij.1 ∈ alphabet M V ∧ ij.2 ∈ alphabet M V := by
  have aux1 : ∀ (l : List (ι × ι)) (ix : List ι), ix.Nodup →
      (l.foldl (fun ix ij => intern (intern ix ij.1) ij.2) ix).Nodup ∧
      (∀ y ∈ ix, y ∈ l.foldl (fun ix ij => intern (intern ix ij.1) ij.2) ix) ∧
      ∀ ij ∈ l, ij.1 ∈ l.foldl (fun ix ij => intern (intern ix ij.1) ij.2) ix ∧
        ij.2 ∈ l.foldl (fun ix ij => intern (intern ix ij.1) ij.2) ix := by
    intro l
    induction l with
    | nil => intro ix h; exact ⟨h, fun _ h => h, by simp⟩
    | cons a l ih =>
      intro ix h
      obtain ⟨h1, h2, h3⟩ := ih (intern (intern ix a.1) a.2) (intern_nodup (intern_nodup h _) _)
      refine ⟨h1, fun y hy => h2 y ?_, ?_⟩
      · exact (intern_sub _ _).2 _ ((intern_sub _ _).2 _ hy)
      · intro ij hij
        rcases List.mem_cons.1 hij with rfl | hij
        · exact ⟨h2 _ ((intern_sub _ _).2 _ (intern_sub _ _).1), h2 _ (intern_sub _ _).1⟩
        · exact h3 ij hij
  have aux2 : ∀ (l : List ι) (ix : List ι), ix.Nodup →
      (l.foldl intern ix).Nodup ∧ (∀ y ∈ ix, y ∈ l.foldl intern ix) ∧
      ∀ x ∈ l, x ∈ l.foldl intern ix := by
    intro l
    induction l with
    | nil => intro ix h; exact ⟨h, fun _ h => h, by simp⟩
    | cons a l ih =>
      intro ix h
      obtain ⟨h1, h2, h3⟩ := ih (intern ix a) (intern_nodup h _)
      refine ⟨h1, fun y hy => h2 y ((intern_sub _ _).2 _ hy), ?_⟩
      intro x hx
      rcases List.mem_cons.1 hx with rfl | hx
      · exact h2 _ (intern_sub _ _).1
      · exact h3 x hx
  obtain ⟨a1, _, a3⟩ := aux1 M.keys [] List.nodup_nil
  obtain ⟨b1, b2, b3⟩ := aux2 V.keys _ a1
  exact ⟨b1, b3, fun ij hij => ⟨b2 _ (a3 ij hij).1, b2 _ (a3 ij hij).2⟩⟩

/-- The value the linear solver reports for item `x` (`Rule(x, sol[i]) for i,x in enumerate(ix)`,
linear.py:89); items that never occur have value zero. -/
def reported (star : R → R) (M : Dict (ι × ι) R) (V : Dict ι R) (x : ι) : R :=
  if h : (alphabet M V).idxOf x < (alphabet M V).length
  then linsolve star M V ⟨(alphabet M V).idxOf x, h⟩ else 0

/-- C22 (linear solver): the reported values solve the linear system: for every item `x`,
`sol[x] = V[x] + Σ over entries ((x, y), m) of M of m · sol[y]` (`M`, `V` are dictionaries). -/
theorem C22_linsolve (star : R → R) (M : Dict (ι × ι) R) (hM : M.WF) (V : Dict ι R)
    (h : PivotsR star (List.finRange _) (packM M (alphabet M V))) (x : ι) :
    reported star M V x
      = (V.get x).getD 0
        + ((List.filter (fun e => decide (e.1.1 = x)) M).map
            (fun e => e.2 * reported star M V e.1.2)).sum := by
  obtain ⟨hnd, hV, hMM⟩ := alphabet_spec M V
  set ix := alphabet M V with hix
  have hrep : ∀ a : Fin ix.length, reported star M V ix[a] = linsolve star M V a := by
    intro a
    have : ix.idxOf ix[a] = a := hnd.idxOf_getElem _ _
    unfold reported
    rw [dif_pos (show ix.idxOf ix[a] < ix.length by rw [this]; exact a.2)]
    congr 1
    exact Fin.ext this
  have hsolve : ∀ a : Fin ix.length, linsolve star M V a
      = packV V ix a + ∑ b, packM M ix a b * linsolve star M V b := by
    intro a
    have hB := C22_right star (packM M ix) h
    have hvec : ∀ a, linsolve star M V a
        = (Matrix.of (kleene star (packM M ix))).mulVec (packV V ix) a := by
      intro a
      simp only [linsolve, Matrix.mulVec, dotProduct, Fin.sum_univ_def]; rfl
    rw [hvec, hB, Matrix.add_mulVec, Matrix.one_mulVec, ← Matrix.mulVec_mulVec]
    simp only [Pi.add_apply]
    congr 1
  by_cases hx : x ∈ ix
  · obtain ⟨a, ha, rfl⟩ := List.mem_iff_getElem.1 hx
    have := hrep ⟨a, ha⟩
    simp only [Fin.getElem_fin] at this
    rw [this, hsolve]
    congr 1
    -- the sum over columns is the sum over dictionary entries in this row
    have key : ∀ (M' : Dict (ι × ι) R), M'.WF → (∀ ij ∈ M'.keys, ij.2 ∈ ix) →
        ∑ b : Fin ix.length, (M'.get (ix[a], ix[b])).getD 0 * linsolve star M V b
        = ((List.filter (fun e => decide (e.1.1 = ix[a])) M').map
            (fun e => e.2 * reported star M V e.1.2)).sum := by
      intro M'
      induction M' with
      | nil => intro _ _; simp
      | cons e M' ih =>
        intro hwf hin
        obtain ⟨⟨i, j⟩, m⟩ := e
        have hwf' : Dict.WF M' := by
          unfold Dict.WF at hwf ⊢; rw [Dict.keys_cons, List.nodup_cons] at hwf; exact hwf.2
        have hni : (i, j) ∉ Dict.keys M' := by
          unfold Dict.WF at hwf; rw [Dict.keys_cons, List.nodup_cons] at hwf; exact hwf.1
        have hgn : Dict.get M' (i, j) = none := (Dict.get_eq_none_iff _ _).2 hni
        have ih := ih hwf' (fun ij h => hin ij (by simp [h]))
        by_cases hi : i = ix[a]
        · subst hi
          simp only [List.filter_cons, decide_true, if_true, List.map_cons, List.sum_cons]
          rw [← ih]
          have hj : j ∈ ix := hin (ix[a], j) (by simp)
          obtain ⟨b0, hb0, rfl⟩ := List.mem_iff_getElem.1 hj
          have hr0 := hrep ⟨b0, hb0⟩
          simp only [Fin.getElem_fin] at hr0
          rw [hr0]
          rw [← Finset.add_sum_erase univ _ (mem_univ (⟨b0, hb0⟩ : Fin ix.length))]
          conv_rhs => rw [← Finset.add_sum_erase univ _ (mem_univ (⟨b0, hb0⟩ : Fin ix.length))]
          simp only [Fin.getElem_fin, Dict.get_cons, if_true, Option.getD_some, hgn,
            Option.getD_none, zero_mul, zero_add]
          congr 1
          apply sum_congr rfl
          intro b hb
          have hne : ix[b0] ≠ ix[b.1] := by
            intro he
            have := (hnd.getElem_inj_iff).1 he
            simp only [mem_erase, mem_univ, and_true] at hb
            exact hb (Fin.ext this.symm)
          simp [hne]
        · simp only [List.filter_cons, hi, decide_false, Bool.false_eq_true, if_false]
          rw [← ih]
          apply sum_congr rfl
          intro b _
          simp [Dict.get_cons, hi]
    exact key M hM (fun ij h => (hMM ij h).2)
  · have hnl : ¬ ix.idxOf x < ix.length := by rw [List.idxOf_lt_length_iff]; exact hx
    have h1 : (V.get x) = none := (Dict.get_eq_none_iff _ _).2 (fun hm => hx (hV x hm))
    have h2 : List.filter (fun e => decide (e.1.1 = x)) M = [] := by
      rw [List.filter_eq_nil_iff]
      rintro ⟨⟨i, j⟩, m⟩ hmem he
      simp at he; subst he
      exact hx (hMM _ (Dict.mem_keys_of_mem hmem)).1
    rw [h1, h2]
    unfold reported
    rw [dif_neg (by rw [← hix]; exact hnl)]
    simp

end Linsolve

/-! ### Non-vacuity -/

/-- The field star `1/(1-a)` meets the pivot hypothesis wherever no pivot is `1`; a concrete cyclic
2×2 matrix over the rationals. -/
example : PivotsR (fun a : ℚ => 1 / (1 - a)) (List.finRange 2)
    (fun i j => if i = j then 0 else 1/2) := by
  simp [List.finRange, PivotsR, pivot]
  norm_num

end Kleene
end Verif
