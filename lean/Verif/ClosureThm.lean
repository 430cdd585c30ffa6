/-
Property C41: the graph's transitive closure is reachability.
-/
import Verif.Closure
import Verif.KleeneThm
import Mathlib.Logic.Relation

set_option linter.unusedSectionVars false
set_option linter.unusedSimpArgs false

namespace Verif
namespace Graph
variable {α : Type*} [DecidableEq α]

/-! ### Specification -/

/-- `y` is a successor of `x`: what a user observes as `y in g[x]`. -/
abbrev Edge (g : Graph α) (x y : α) : Prop := y ∈ g.succ x

/-- A graph obtained through the public API: both ends of an edge are nodes, nodes listed once. -/
inductive Built : Graph α → Prop
  | empty : Built empty
  | add {g} (u) : Built g → Built (g.add u)
  | addEdge {g} (u v) : Built g → Built (g.addEdge u v)

/-! ### Lemmas -/

theorem mem_setAdd {l : List α} {x y : α} : y ∈ setAdd l x ↔ y ∈ l ∨ y = x := by
  unfold setAdd; split
  · constructor
    · exact Or.inl
    · rintro (h | rfl); exacts [h, by assumption]
  · simp

theorem nodup_setAdd {l : List α} (h : l.Nodup) (x : α) : (setAdd l x).Nodup := by
  unfold setAdd; split
  · exact h
  · rename_i hx; rw [List.nodup_append]; refine ⟨h, by simp, ?_⟩
    intro a ha b hb; simp at hb; subst hb; rintro rfl; exact hx ha

theorem succ_addEdge (g : Graph α) (u v x : α) :
    (g.addEdge u v).succ x = if u = x then setAdd (g.succ u) v else g.succ x := by
  simp only [succ, addEdge, Dict.get_set]
  split <;> simp

theorem edge_addEdge (g : Graph α) (u v x y : α) :
    (g.addEdge u v).Edge x y ↔ g.Edge x y ∨ (x = u ∧ y = v) := by
  simp only [Edge, succ_addEdge]
  split
  · rename_i h; subst h; simp [mem_setAdd]
  · rename_i h; simp [Ne.symm h]

theorem edge_add (g : Graph α) (u x y : α) : (g.add u).Edge x y ↔ g.Edge x y := Iff.rfl

theorem Built.wf {g : Graph α} (h : Built g) :
    g.nodes.Nodup ∧ ∀ x y, g.Edge x y → x ∈ g.nodes ∧ y ∈ g.nodes := by
  induction h with
  | empty => exact ⟨by simp [Graph.empty], by simp [Edge, succ, Graph.empty]⟩
  | add u _ ih =>
    refine ⟨nodup_setAdd ih.1 _, fun x y h => ?_⟩
    obtain ⟨a, b⟩ := ih.2 x y h
    exact ⟨mem_setAdd.2 (.inl a), mem_setAdd.2 (.inl b)⟩
  | addEdge u v _ ih =>
    refine ⟨nodup_setAdd (nodup_setAdd ih.1 _) _, fun x y h => ?_⟩
    simp only [Graph.addEdge, mem_setAdd]
    rcases (edge_addEdge _ _ _ _ _).1 h with h | ⟨rfl, rfl⟩
    · obtain ⟨a, b⟩ := ih.2 x y h
      simp [a, b]
    · simp

theorem star_ok (A : Fin n → Fin n → Boolean) (l : List (Fin n)) :
    Kleene.PivotsR Boolean.star l A := by
  induction l generalizing A with
  | nil => trivial
  | cons j l ih => exact ⟨Boolean.ext' (by simp [Boolean.star]), ih _⟩

theorem sum_score {ι : Type*} (s : Finset ι) (f : ι → Boolean) :
    (∑ i ∈ s, f i).score = true ↔ ∃ i ∈ s, (f i).score = true := by
  classical
  induction s using Finset.induction_on with
  | empty => simp
  | insert a s ha ih => rw [Finset.sum_insert ha]; simp [ih]

variable {n : Nat}

theorem loop_sound (A : Fin n → Fin n → Boolean) (i k : Fin n)
    (h : (Kleene.loop Boolean.star A i k).score = true) :
    Relation.TransGen (fun i k => (A i k).score = true) i k := by
  have : ∀ (l : List (Fin n)) (M : Fin n → Fin n → Boolean),
      (∀ i k, (M i k).score = true → Relation.TransGen (fun i k => (A i k).score = true) i k) →
      ∀ i k, (l.foldl (Kleene.pivot Boolean.star) M i k).score = true →
        Relation.TransGen (fun i k => (A i k).score = true) i k := by
    intro l
    induction l with
    | nil => intro M hM i k h; exact hM i k h
    | cons p l ih =>
      intro M hM i k h
      refine ih (Kleene.pivot Boolean.star M p) ?_ i k h
      intro i k h
      simp only [Kleene.pivot, Boolean.score_add, Boolean.score_mul, Boolean.star,
        Boolean.score_one, Bool.and_true, Bool.or_eq_true, Bool.and_eq_true] at h
      rcases h with h | ⟨h1, h2⟩
      · exact hM i k h
      · exact (hM _ _ h1).trans (hM _ _ h2)
  exact this _ A (fun i k h => .single h) i k h

theorem loop_complete (A : Fin n → Fin n → Boolean) (i k : Fin n)
    (h : Relation.TransGen (fun i k => (A i k).score = true) i k) :
    (Kleene.loop Boolean.star A i k).score = true := by
  have hE := Kleene.C22_transitive_right Boolean.star A (star_ok A _)
  have hE' : ∀ i k, (Kleene.loop Boolean.star A i k).score = true ↔
      (A i k).score = true ∨ ∃ j, (A i j).score = true ∧ (Kleene.loop Boolean.star A j k).score = true := by
    intro i k
    have := congrArg (fun M : Matrix (Fin n) (Fin n) Boolean => (M i k).score) hE
    simp only [Matrix.of_apply, Matrix.add_apply, Matrix.mul_apply, Kleene.kleene,
      Bool.false_eq_true, if_false, Boolean.score_add] at this
    rw [this, Bool.or_eq_true, sum_score]
    simp
  induction h using Relation.TransGen.head_induction_on with
  | single h => exact (hE' _ _).2 (.inl h)
  | head h _ ih => exact (hE' _ _).2 (.inr ⟨_, h, ih⟩)

theorem edge_foldl_inner {g : Graph α} (T : Fin n → Boolean) (nd : Fin n → α) (u : α) (l : List (Fin n))
    (x y : α) :
    (l.foldl (fun h j => if (T j).score then h.addEdge u (nd j) else h) g).Edge x y ↔
      g.Edge x y ∨ (x = u ∧ ∃ j ∈ l, (T j).score = true ∧ y = nd j) := by
  induction l generalizing g with
  | nil => simp
  | cons j l ih =>
    simp only [List.foldl_cons]
    rw [ih]
    by_cases h : (T j).score = true
    · simp only [h, if_true, edge_addEdge, List.mem_cons, exists_eq_or_imp, true_and]
      tauto
    · simp [h]

theorem edge_foldl_outer {g : Graph α} (T : Fin n → Fin n → Boolean) (nd : Fin n → α) (l l' : List (Fin n))
    (x y : α) :
    (l.foldl (fun h i => l'.foldl (fun h j => if (T i j).score then h.addEdge (nd i) (nd j) else h) h) g).Edge x y ↔
      g.Edge x y ∨ ∃ i ∈ l, x = nd i ∧ ∃ j ∈ l', (T i j).score = true ∧ y = nd j := by
  induction l generalizing g with
  | nil => simp
  | cons i l ih =>
    simp only [List.foldl_cons]
    rw [ih, edge_foldl_inner]
    simp only [List.mem_cons, exists_eq_or_imp]
    exact or_assoc

theorem edge_foldl_add (l : List α) (g : Graph α) (x y : α) :
    (l.foldl add g).Edge x y ↔ g.Edge x y := by
  induction l generalizing g with
  | nil => rfl
  | cons a l ih => simp [ih, edge_add]

theorem closure_edge (g : Graph α) (r : Bool) (x y : α) :
    (g.transitiveClosure r).Edge x y ↔
      ∃ i j : Fin g.nodes.length, x = g.nodes[i] ∧ y = g.nodes[j] ∧
        (Kleene.kleene Boolean.star g.adj r i j).score = true := by
  unfold transitiveClosure
  rw [edge_foldl_outer (nd := fun i => g.nodes[i]), edge_foldl_add]
  have : ¬ (empty : Graph α).Edge x y := by simp [Edge, succ, empty]
  simp only [this, false_or, List.mem_finRange, true_and]
  constructor
  · rintro ⟨i, hx, j, h, hy⟩; exact ⟨i, j, hx, hy, h⟩
  · rintro ⟨i, j, hx, hy, h⟩; exact ⟨i, hx, j, h, hy⟩

theorem adj_iff (g : Graph α) (i j : Fin g.nodes.length) :
    (g.adj i j).score = true ↔ g.Edge g.nodes[i] g.nodes[j] := by
  unfold adj Edge
  split <;> simp_all

theorem loop_iff {g : Graph α} (hg : Built g) (i j : Fin g.nodes.length) :
    (Kleene.loop Boolean.star g.adj i j).score = true ↔
      Relation.TransGen g.Edge g.nodes[i] g.nodes[j] := by
  constructor
  · intro h
    have := loop_sound _ _ _ h
    exact Relation.TransGen.lift (fun i : Fin g.nodes.length => g.nodes[i])
      (fun a b h => (adj_iff g a b).1 h) _ _ this
  · intro h
    apply loop_complete
    obtain ⟨hnd, hin⟩ := hg.wf
    have key : ∀ x, Relation.TransGen g.Edge x g.nodes[j] → ∀ i : Fin g.nodes.length, g.nodes[i] = x →
        Relation.TransGen (fun i k => (g.adj i k).score = true) i j := by
      intro x hx
      induction hx using Relation.TransGen.head_induction_on with
      | single h => intro i hi; subst hi; exact .single ((adj_iff g _ _).2 h)
      | head h _ ih =>
        rename_i a c
        intro i hi; subst hi
        obtain ⟨k, hk, hk'⟩ := List.mem_iff_getElem.1 (hin _ _ h).2
        have h2 := ih ⟨k, hk⟩ hk'
        exact .head ((adj_iff g i ⟨k, hk⟩).2 (by simpa [hk'] using h)) h2
    exact key _ h i rfl

/-! ### Property C41 -/

/-- C41: the transitive closure has an edge `x → y` iff there is a nonempty path from `x` to `y`. -/
theorem C41_transitive {g : Graph α} (hg : Built g) (x y : α) :
    (g.transitiveClosure false).Edge x y ↔ Relation.TransGen g.Edge x y := by
  rw [closure_edge]
  constructor
  · rintro ⟨i, j, rfl, rfl, h⟩
    exact (loop_iff hg i j).1 h
  · intro h
    have hx : x ∈ g.nodes := by
      obtain ⟨z, hz, _⟩ := Relation.TransGen.head'_iff.1 h; exact (hg.wf.2 _ _ hz).1
    have hy : y ∈ g.nodes := by
      obtain ⟨z, _, hz⟩ := Relation.TransGen.tail'_iff.1 h; exact (hg.wf.2 _ _ hz).2
    obtain ⟨i, hi, rfl⟩ := List.mem_iff_getElem.1 hx
    obtain ⟨j, hj, rfl⟩ := List.mem_iff_getElem.1 hy
    exact ⟨⟨i, hi⟩, ⟨j, hj⟩, rfl, rfl, (loop_iff hg ⟨i, hi⟩ ⟨j, hj⟩).2 h⟩

/-- C41: the reflexive variant adds exactly the self edges of the nodes. -/
theorem C41_reflexive {g : Graph α} (hg : Built g) (x y : α) :
    (g.transitiveClosure true).Edge x y ↔ x ∈ g.nodes ∧ Relation.ReflTransGen g.Edge x y := by
  rw [closure_edge]
  have hk : ∀ i j, (Kleene.kleene Boolean.star g.adj true i j).score = true ↔
      i = j ∨ (Kleene.loop Boolean.star g.adj i j).score = true := by
    intro i j
    by_cases h : i = j <;> simp [Kleene.kleene, h]
  constructor
  · rintro ⟨i, j, rfl, rfl, h⟩
    refine ⟨List.getElem_mem _, ?_⟩
    rcases (hk i j).1 h with rfl | h
    · exact .refl
    · exact ((loop_iff hg i j).1 h).to_reflTransGen
  · rintro ⟨hx, h⟩
    obtain ⟨i, hi, rfl⟩ := List.mem_iff_getElem.1 hx
    rcases Relation.reflTransGen_iff_eq_or_transGen.1 h with rfl | h
    · exact ⟨⟨i, hi⟩, ⟨i, hi⟩, rfl, rfl, (hk _ _).2 (.inl rfl)⟩
    · have hy : y ∈ g.nodes := by
        obtain ⟨z, _, hz⟩ := Relation.TransGen.tail'_iff.1 h; exact (hg.wf.2 _ _ hz).2
      obtain ⟨j, hj, rfl⟩ := List.mem_iff_getElem.1 hy
      exact ⟨⟨i, hi⟩, ⟨j, hj⟩, rfl, rfl, (hk _ _).2 (.inr ((loop_iff hg ⟨i, hi⟩ ⟨j, hj⟩).2 h))⟩

theorem built_ofEdges (es : List (α × α)) : Built (ofEdges es) := by
  unfold ofEdges
  have : ∀ g, Built g → Built (es.foldl (fun g e => g.addEdge e.1 e.2) g) := by
    induction es with
    | nil => intro g h; exact h
    | cons e es ih => intro g h; exact ih _ (h.addEdge _ _)
  exact this _ .empty

/-- Non-vacuity: a two-node cycle with a tail; the closure has the self edge 1 → 1 and not 3 → 1. -/
example : Built (ofEdges [(1, 2), (2, 1), (2, 3)]) ∧
    ((ofEdges [(1, 2), (2, 1), (2, 3)]).transitiveClosure false).Edge 1 1 ∧
    ¬ ((ofEdges [(1, 2), (2, 1), (2, 3)]).transitiveClosure false).Edge 3 1 := by
  refine ⟨built_ofEdges _, ?_, ?_⟩ <;> decide

end Graph
end Verif
