import Verif.ProgGraph
import Mathlib.Data.Finset.Card
import Mathlib.Data.Finset.Filter
import Mathlib.Data.List.Flatten

/-!
# C77: the graph of a collection of programs records its history, and `tidy` keeps the justified part
-/

set_option linter.unusedSectionVars false
set_option linter.unusedSimpArgs false

namespace Verif
namespace PG

variable {A : Type} [DecidableEq A]

/-! ## Specifications -/

/-- `x` was made from `y` in one step. -/
inductive MadeFrom : Obj A → Obj A → Prop
  | tr {i n a p} : MadeFrom (.tr i n a p) p
  | fresh {i p} : MadeFrom (.fresh i p) p
  | foldP {i a p d} : MadeFrom (.fold i a p d) p
  | foldD {i a p d} : MadeFrom (.fold i a p d) d
  | unfoldP {i a p d} : MadeFrom (.unfold i a p d) p
  | unfoldD {i a p d} : MadeFrom (.unfold i a p d) d

/-- `y` occurs in the history of `x`. -/
inductive Hist : Obj A → Obj A → Prop
  | refl {x} : Hist x x
  | step {x y z} : MadeFrom x y → Hist y z → Hist x z

/-- A copy made by `fresh`. -/
def IsFresh (x : Obj A) : Prop := ∃ i p, x = .fresh i p

/-- `y` occurs in the history of `x` and is reached without passing a fresh copy. -/
inductive Open : Obj A → Obj A → Prop
  | refl {x} : Open x x
  | step {x y z} : ¬ IsFresh x → MadeFrom x y → Open y z → Open x z

/-- The edge `e` is in the graph. -/
def Has (g : Graph A) (e : Edge A) : Prop := ∃ x, e ∈ (g.at' x).map Prod.fst

/-- The nodes for which a derivation exists that uses edges of `g` into `correct` nodes only. -/
inductive Built (g : Graph A) (correct : List A) : A → Prop
  | mk {e : Edge A} : e.head ∈ correct → Has g e → (∀ y ∈ e.deps, Built g correct y) →
      Built g correct e.head

/-- What holds of every graph the class makes: the edge filed under a node is the edge of the
program object it holds, which is no fresh copy, and has that node as its head; a node that has an
edge is a key. -/
structure Graph.WF (g : Graph A) : Prop where
  filed : ∀ x, ∀ et ∈ g.at' x, et.1 = edge et.2 ∧ et.1.head = x ∧ ¬ IsFresh et.2
  key : ∀ x, g.at' x ≠ [] → x ∈ g.keys

/-- Every key has an edge. -/
def Graph.NoIdle (g : Graph A) : Prop := ∀ x ∈ g.keys, g.at' x ≠ []

/-! ## `add` -/

theorem edge_head (x : Obj A) : (edge x).head = x.cls := by
  induction x with
  | fresh i p ih => simpa [edge, Obj.cls] using ih
  | _ => rfl

theorem unfresh_cls (x : Obj A) : x.unfresh.cls = x.cls := by
  induction x with
  | fresh i p ih => simpa [Obj.unfresh, Obj.cls] using ih
  | _ => rfl

theorem unfresh_edge (x : Obj A) : edge x.unfresh = edge x := by
  induction x with
  | fresh i p ih => simpa [Obj.unfresh, edge] using ih
  | _ => rfl

theorem unfresh_not (x : Obj A) : ¬ IsFresh x.unfresh := by
  induction x with
  | fresh i p ih => simpa [Obj.unfresh] using ih
  | _ => rintro ⟨j, q, h⟩; simp [Obj.unfresh] at h

theorem unfresh_of {x : Obj A} (h : ¬ IsFresh x) : x.unfresh = x := by
  cases x with
  | fresh i p => exact absurd ⟨i, p, rfl⟩ h
  | _ => rfl

theorem add_eq (g : Graph A) (x : Obj A) :
    g.add x = g.insert x.cls (edge x) x.unfresh := by
  induction x with
  | fresh i p ih => simpa [Graph.add, Obj.cls, edge, Obj.unfresh] using ih
  | _ => rfl

theorem touch_at (g : Graph A) (x : A) : (g.touch x).at' = g.at' := by
  unfold Graph.touch; split <;> rfl

theorem touch_keys (g : Graph A) (x y : A) : y ∈ (g.touch x).keys ↔ y ∈ g.keys ∨ y = x := by
  unfold Graph.touch
  split
  · rename_i h
    constructor
    · exact Or.inl
    · rintro (h' | rfl); exacts [h', h]
  · simp

theorem insert_keys (g : Graph A) (x : A) (e t) (y : A) :
    y ∈ (g.insert x e t).keys ↔ y ∈ g.keys ∨ y = x := by
  unfold Graph.insert
  simp only
  split
  · exact touch_keys g x y
  · exact touch_keys g x y

theorem insert_mem (g : Graph A) (x : A) (e : Edge A) (t) (y : A) (f : Edge A) :
    f ∈ ((g.insert x e t).at' y).map Prod.fst ↔ f ∈ (g.at' y).map Prod.fst ∨ (y = x ∧ f = e) := by
  unfold Graph.insert
  simp only [touch_at]
  split
  · rename_i h
    rw [touch_at]
    constructor
    · exact Or.inl
    · rintro (h' | ⟨rfl, rfl⟩); exacts [h', h]
  · by_cases hy : y = x
    · subst hy; simp
    · simp [hy]

theorem insert_has (g : Graph A) (x : A) (e : Edge A) (t) (f : Edge A) :
    Has (g.insert x e t) f ↔ Has g f ∨ f = e := by
  unfold Has
  constructor
  · rintro ⟨y, hy⟩
    rcases (insert_mem g x e t y f).1 hy with h | ⟨_, h⟩
    exacts [Or.inl ⟨y, h⟩, Or.inr h]
  · rintro (⟨y, hy⟩ | rfl)
    · exact ⟨y, (insert_mem g x e t y f).2 (Or.inl hy)⟩
    · exact ⟨x, (insert_mem g x f t x f).2 (Or.inr ⟨rfl, rfl⟩)⟩

theorem insert_wf {g : Graph A} (h : g.WF) {x : A} {t : Obj A} (hx : (edge t).head = x)
    (hf : ¬ IsFresh t) : (g.insert x (edge t) t).WF := by
  constructor
  · intro y et het
    unfold Graph.insert at het
    simp only [touch_at] at het
    split at het
    · rw [touch_at] at het; exact h.filed y et het
    · by_cases hy : y = x
      · subst hy
        simp only [if_true, List.mem_append, List.mem_singleton] at het
        rcases het with het | rfl
        · exact h.filed y et het
        · exact ⟨rfl, hx, hf⟩
      · simp only [if_neg hy] at het
        exact h.filed y et het
  · intro y hy
    rw [insert_keys]
    by_cases hyx : y = x
    · exact Or.inr hyx
    · refine Or.inl (h.key y ?_)
      unfold Graph.insert at hy
      simp only [touch_at] at hy
      split at hy
      · rwa [touch_at] at hy
      · simpa [hyx] using hy

theorem insert_idle {g : Graph A} (h : g.NoIdle) {x : A} {e : Edge A} {t : Obj A} :
    (g.insert x e t).NoIdle := by
  intro y hy
  have : ((g.insert x e t).at' y).map Prod.fst ≠ [] := by
    rcases (insert_keys g x e t y).1 hy with hk | rfl
    · have h0 := h y hk
      obtain ⟨et, het⟩ := List.exists_mem_of_ne_nil _ h0
      have : et.1 ∈ ((g.insert x e t).at' y).map Prod.fst :=
        (insert_mem g x e t y et.1).2 (Or.inl (List.mem_map_of_mem het))
      exact List.ne_nil_of_mem this
    · exact List.ne_nil_of_mem ((insert_mem g y e t y e).2 (Or.inr ⟨rfl, rfl⟩))
  intro h0
  exact this (by rw [h0]; rfl)

theorem add_has (g : Graph A) (x : Obj A) (f : Edge A) :
    Has (g.add x) f ↔ Has g f ∨ f = edge x := by
  rw [add_eq]; exact insert_has _ _ _ _ _

theorem add_wf {g : Graph A} (h : g.WF) (x : Obj A) : (g.add x).WF := by
  rw [add_eq, ← unfresh_edge x]
  exact insert_wf h (by rw [unfresh_edge, edge_head]) (unfresh_not x)

theorem add_idle {g : Graph A} (h : g.NoIdle) (x : Obj A) : (g.add x).NoIdle := by
  rw [add_eq]; exact insert_idle h

theorem empty_wf : (Graph.empty : Graph A).WF :=
  ⟨fun x et h => by simp [Graph.empty] at h, fun x h => absurd rfl h⟩

theorem empty_idle : (Graph.empty : Graph A).NoIdle := fun x h => by simp [Graph.empty] at h

theorem empty_has (e : Edge A) : ¬ Has Graph.empty e := by
  rintro ⟨x, h⟩; simp [Graph.empty] at h

theorem has_at {g : Graph A} (h : g.WF) (x : A) (e : Edge A) :
    e ∈ (g.at' x).map Prod.fst ↔ Has g e ∧ e.head = x := by
  constructor
  · intro he
    obtain ⟨et, het, rfl⟩ := List.mem_map.1 he
    exact ⟨⟨x, he⟩, (h.filed x et het).2.1⟩
  · rintro ⟨⟨y, hy⟩, hx⟩
    obtain ⟨et, het, rfl⟩ := List.mem_map.1 hy
    rw [← hx, (h.filed y et het).2.1]
    exact hy

theorem key_iff {g : Graph A} (h : g.WF) (h' : g.NoIdle) (x : A) :
    x ∈ g.keys ↔ ∃ e, Has g e ∧ e.head = x := by
  constructor
  · intro hx
    obtain ⟨et, het⟩ := List.exists_mem_of_ne_nil _ (h' x hx)
    exact ⟨et.1, (has_at h x et.1).1 (List.mem_map_of_mem het)⟩
  · rintro ⟨e, he, hx⟩
    have := (has_at h x e).2 ⟨he, hx⟩
    apply h.key
    intro h0
    rw [h0] at this
    simp at this

/-! ## `add_parents` -/

theorem visit_wf (x : Obj A) (st : Graph A × List ℕ) (h : st.1.WF) : (visit x st).1.WF := by
  induction x generalizing st with
  | ref i a => rw [visit]; split; exacts [h, add_wf h _]
  | tr i n a p ih => rw [visit]; split; exacts [h, ih _ (add_wf h _)]
  | fresh i p ih => rw [visit]; split; exacts [h, add_wf h _]
  | fold i a p d ih ih' => rw [visit]; split; exacts [h, ih' _ (ih _ (add_wf h _))]
  | unfold i a p d ih ih' => rw [visit]; split; exacts [h, ih' _ (ih _ (add_wf h _))]

theorem visit_idle (x : Obj A) (st : Graph A × List ℕ) (h : st.1.NoIdle) :
    (visit x st).1.NoIdle := by
  induction x generalizing st with
  | ref i a => rw [visit]; split; exacts [h, add_idle h _]
  | tr i n a p ih => rw [visit]; split; exacts [h, ih _ (add_idle h _)]
  | fresh i p ih => rw [visit]; split; exacts [h, add_idle h _]
  | fold i a p d ih ih' => rw [visit]; split; exacts [h, ih' _ (ih _ (add_idle h _))]
  | unfold i a p d ih ih' => rw [visit]; split; exacts [h, ih' _ (ih _ (add_idle h _))]

theorem visit_mono (x : Obj A) (st : Graph A × List ℕ) (e : Edge A) (h : Has st.1 e) :
    Has (visit x st).1 e := by
  have ha : ∀ (g : Graph A) y, Has g e → Has (g.add y) e := fun g y h =>
    (add_has g y e).2 (Or.inl h)
  induction x generalizing st with
  | ref i a => rw [visit]; split; exacts [h, ha _ _ h]
  | tr i n a p ih => rw [visit]; split; exacts [h, ih _ (ha _ _ h)]
  | fresh i p ih => rw [visit]; split; exacts [h, ha _ _ h]
  | fold i a p d ih ih' => rw [visit]; split; exacts [h, ih' _ (ih _ (ha _ _ h))]
  | unfold i a p d ih ih' => rw [visit]; split; exacts [h, ih' _ (ih _ (ha _ _ h))]

theorem visit_sound (x : Obj A) (st : Graph A × List ℕ) (e : Edge A)
    (h : Has (visit x st).1 e) : Has st.1 e ∨ ∃ y, Open x y ∧ e = edge y := by
  induction x generalizing st with
  | ref i a =>
    rw [visit] at h; split at h
    · exact Or.inl h
    · rcases (add_has _ _ _).1 h with h | rfl
      exacts [Or.inl h, Or.inr ⟨_, .refl, rfl⟩]
  | fresh i p ih =>
    rw [visit] at h; split at h
    · exact Or.inl h
    · rcases (add_has _ _ _).1 h with h | rfl
      exacts [Or.inl h, Or.inr ⟨.fresh i p, .refl, rfl⟩]
  | tr i n a p ih =>
    have nf : ¬ IsFresh (Obj.tr i n a p) := by rintro ⟨_, _, h⟩; cases h
    rw [visit] at h; split at h
    · exact Or.inl h
    · rcases ih _ h with h | ⟨y, hy, rfl⟩
      · rcases (add_has _ _ _).1 h with h | rfl
        exacts [Or.inl h, Or.inr ⟨_, .refl, rfl⟩]
      · exact Or.inr ⟨y, .step nf .tr hy, rfl⟩
  | fold i a p d ih ih' =>
    have nf : ¬ IsFresh (Obj.fold i a p d) := by rintro ⟨_, _, h⟩; cases h
    rw [visit] at h; split at h
    · exact Or.inl h
    · rcases ih' _ h with h | ⟨y, hy, rfl⟩
      · rcases ih _ h with h | ⟨y, hy, rfl⟩
        · rcases (add_has _ _ _).1 h with h | rfl
          exacts [Or.inl h, Or.inr ⟨_, .refl, rfl⟩]
        · exact Or.inr ⟨y, .step nf .foldP hy, rfl⟩
      · exact Or.inr ⟨y, .step nf .foldD hy, rfl⟩
  | unfold i a p d ih ih' =>
    have nf : ¬ IsFresh (Obj.unfold i a p d) := by rintro ⟨_, _, h⟩; cases h
    rw [visit] at h; split at h
    · exact Or.inl h
    · rcases ih' _ h with h | ⟨y, hy, rfl⟩
      · rcases ih _ h with h | ⟨y, hy, rfl⟩
        · rcases (add_has _ _ _).1 h with h | rfl
          exacts [Or.inl h, Or.inr ⟨_, .refl, rfl⟩]
        · exact Or.inr ⟨y, .step nf .unfoldP hy, rfl⟩
      · exact Or.inr ⟨y, .step nf .unfoldD hy, rfl⟩

/-- the length of the longest history -/
def depth : Obj A → ℕ
  | .ref _ _ => 0
  | .tr _ _ _ p => depth p + 1
  | .fresh _ p => depth p + 1
  | .fold _ _ p d => max (depth p) (depth d) + 1
  | .unfold _ _ p d => max (depth p) (depth d) + 1

def Done (g : Graph A) (o : Obj A) : Prop := ∀ y, Open o y → Has g (edge y)

theorem Done.mono {g g' : Graph A} {o : Obj A} (h : Done g o) (hm : ∀ e, Has g e → Has g' e) :
    Done g' o := fun y hy => hm _ (h y hy)

theorem open_inv {x z : Obj A} (h : Open x z) :
    z = x ∨ (¬ IsFresh x ∧ ∃ y, MadeFrom x y ∧ Open y z) := by
  cases h with
  | refl => exact Or.inl rfl
  | step h1 h2 h3 => exact Or.inr ⟨h1, _, h2, h3⟩

/-- The traversal: what it has met is done, apart from the programs it is in the middle of. -/
theorem visit_complete (U : Obj A → Prop) (hU : ∀ x y, U x → MadeFrom x y → U y)
    (hinj : ∀ x y, U x → U y → x.id = y.id → x = y) (x : Obj A) (hx : U x)
    (st : Graph A × List ℕ)
    (hpre : ∀ o, U o → o.id ∈ st.2 → depth x < depth o ∨ Done st.1 o) :
    Done (visit x st).1 x ∧
      ∀ o, U o → o.id ∈ (visit x st).2 → o.id ∈ st.2 ∨ Done (visit x st).1 o := by
  induction x generalizing st with
  | ref i a =>
    rw [visit]
    split
    · rename_i hi
      refine ⟨?_, fun o _ ho => Or.inl ho⟩
      rcases hpre _ hx hi with h | h
      · exact absurd h (lt_irrefl _)
      · exact h
    · have hd : Done (st.1.add (.ref i a)) (.ref i a) := by
        intro y hy
        rcases open_inv hy with rfl | ⟨_, z, hz, _⟩
        · exact (add_has _ _ _).2 (Or.inr rfl)
        · cases hz
      refine ⟨hd, fun o hUo ho => ?_⟩
      rcases List.mem_cons.1 ho with ho | ho
      · right; rw [hinj o _ hUo hx ho]; exact hd
      · exact Or.inl ho
  | fresh i p ih =>
    rw [visit]
    split
    · rename_i hi
      refine ⟨?_, fun o _ ho => Or.inl ho⟩
      rcases hpre _ hx hi with h | h
      · exact absurd h (lt_irrefl _)
      · exact h
    · have hd : Done (st.1.add p) (.fresh i p) := by
        intro y hy
        rcases open_inv hy with rfl | ⟨hn, _⟩
        · exact (add_has _ _ _).2 (Or.inr rfl)
        · exact absurd ⟨i, p, rfl⟩ hn
      refine ⟨hd, fun o hUo ho => ?_⟩
      rcases List.mem_cons.1 ho with ho | ho
      · right; rw [hinj o _ hUo hx ho]; exact hd
      · exact Or.inl ho
  | tr i n a p ih =>
    rw [visit]
    split
    · rename_i hi
      refine ⟨?_, fun o _ ho => Or.inl ho⟩
      rcases hpre _ hx hi with h | h
      · exact absurd h (lt_irrefl _)
      · exact h
    · obtain ⟨h1, h2⟩ := ih (hU _ _ hx .tr) (st.1.add (.tr i n a p), i :: st.2) (by
        intro o hUo ho
        rcases List.mem_cons.1 ho with ho | ho
        · left; rw [hinj o _ hUo hx ho]; simp [depth]
        · rcases hpre o hUo ho with h | h
          · left; simp only [depth] at h; omega
          · exact Or.inr (h.mono fun e he => (add_has _ _ _).2 (Or.inl he)))
      have hd : Done (visit p (st.1.add (.tr i n a p), i :: st.2)).1 (.tr i n a p) := by
        intro y hy
        rcases open_inv hy with rfl | ⟨_, z, hz, hzy⟩
        · exact visit_mono _ _ _ ((add_has _ _ _).2 (Or.inr rfl))
        · cases hz; exact h1 y hzy
      refine ⟨hd, fun o hUo ho => ?_⟩
      rcases h2 o hUo ho with ho | ho
      · rcases List.mem_cons.1 ho with ho | ho
        · right; rw [hinj o _ hUo hx ho]; exact hd
        · exact Or.inl ho
      · exact Or.inr ho
  | fold i a p d ih ih' =>
    rw [visit]
    split
    · rename_i hi
      refine ⟨?_, fun o _ ho => Or.inl ho⟩
      rcases hpre _ hx hi with h | h
      · exact absurd h (lt_irrefl _)
      · exact h
    · obtain ⟨h1, h2⟩ := ih (hU _ _ hx .foldP) (st.1.add (.fold i a p d), i :: st.2) (by
        intro o hUo ho
        rcases List.mem_cons.1 ho with ho | ho
        · left; rw [hinj o _ hUo hx ho]; simp only [depth]; omega
        · rcases hpre o hUo ho with h | h
          · left; simp only [depth] at h; omega
          · exact Or.inr (h.mono fun e he => (add_has _ _ _).2 (Or.inl he)))
      obtain ⟨h3, h4⟩ := ih' (hU _ _ hx .foldD)
        (visit p (st.1.add (.fold i a p d), i :: st.2)) (by
        intro o hUo ho
        rcases h2 o hUo ho with ho | ho
        · rcases List.mem_cons.1 ho with ho | ho
          · left; rw [hinj o _ hUo hx ho]; simp only [depth]; omega
          · rcases hpre o hUo ho with h | h
            · left; simp only [depth] at h; omega
            · exact Or.inr (h.mono fun e he =>
                visit_mono _ _ _ ((add_has _ _ _).2 (Or.inl he)))
        · exact Or.inr ho)
      have hd : Done (visit d (visit p (st.1.add (.fold i a p d), i :: st.2))).1
          (.fold i a p d) := by
        intro y hy
        rcases open_inv hy with rfl | ⟨_, z, hz, hzy⟩
        · exact visit_mono _ _ _ (visit_mono _ _ _ ((add_has _ _ _).2 (Or.inr rfl)))
        · cases hz
          · exact visit_mono _ _ _ (h1 y hzy)
          · exact h3 y hzy
      refine ⟨hd, fun o hUo ho => ?_⟩
      rcases h4 o hUo ho with ho | ho
      · rcases h2 o hUo ho with ho | ho
        · rcases List.mem_cons.1 ho with ho | ho
          · right; rw [hinj o _ hUo hx ho]; exact hd
          · exact Or.inl ho
        · exact Or.inr (ho.mono fun e he => visit_mono _ _ _ he)
      · exact Or.inr ho
  | unfold i a p d ih ih' =>
    rw [visit]
    split
    · rename_i hi
      refine ⟨?_, fun o _ ho => Or.inl ho⟩
      rcases hpre _ hx hi with h | h
      · exact absurd h (lt_irrefl _)
      · exact h
    · obtain ⟨h1, h2⟩ := ih (hU _ _ hx .unfoldP) (st.1.add (.unfold i a p d), i :: st.2) (by
        intro o hUo ho
        rcases List.mem_cons.1 ho with ho | ho
        · left; rw [hinj o _ hUo hx ho]; simp only [depth]; omega
        · rcases hpre o hUo ho with h | h
          · left; simp only [depth] at h; omega
          · exact Or.inr (h.mono fun e he => (add_has _ _ _).2 (Or.inl he)))
      obtain ⟨h3, h4⟩ := ih' (hU _ _ hx .unfoldD)
        (visit p (st.1.add (.unfold i a p d), i :: st.2)) (by
        intro o hUo ho
        rcases h2 o hUo ho with ho | ho
        · rcases List.mem_cons.1 ho with ho | ho
          · left; rw [hinj o _ hUo hx ho]; simp only [depth]; omega
          · rcases hpre o hUo ho with h | h
            · left; simp only [depth] at h; omega
            · exact Or.inr (h.mono fun e he =>
                visit_mono _ _ _ ((add_has _ _ _).2 (Or.inl he)))
        · exact Or.inr ho)
      have hd : Done (visit d (visit p (st.1.add (.unfold i a p d), i :: st.2))).1
          (.unfold i a p d) := by
        intro y hy
        rcases open_inv hy with rfl | ⟨_, z, hz, hzy⟩
        · exact visit_mono _ _ _ (visit_mono _ _ _ ((add_has _ _ _).2 (Or.inr rfl)))
        · cases hz
          · exact visit_mono _ _ _ (h1 y hzy)
          · exact h3 y hzy
      refine ⟨hd, fun o hUo ho => ?_⟩
      rcases h4 o hUo ho with ho | ho
      · rcases h2 o hUo ho with ho | ho
        · rcases List.mem_cons.1 ho with ho | ho
          · right; rw [hinj o _ hUo hx ho]; exact hd
          · exact Or.inl ho
        · exact Or.inr (ho.mono fun e he => visit_mono _ _ _ he)
      · exact Or.inr ho

theorem hist_trans {x y z : Obj A} (h : Hist x y) (h' : Hist y z) : Hist x z := by
  induction h with
  | refl => exact h'
  | step h1 _ ih => exact .step h1 (ih h')

theorem open_hist {x y : Obj A} (h : Open x y) : Hist x y := by
  induction h with
  | refl => exact .refl
  | step _ h1 _ ih => exact .step h1 ih

theorem open_trans {x y z : Obj A} (h : Open x y) (h' : Open y z) : Open x z := by
  induction h with
  | refl => exact h'
  | step h0 h1 _ ih => exact .step h0 h1 (ih h')

/-- Distinct programs in the histories of `xs` have distinct identities (python's `id`). -/
def IdsOK (xs : List (Obj A)) : Prop :=
  ∀ x ∈ xs, ∀ a b, Hist x a → Hist x b → a.id = b.id → a = b

theorem ofNodes_wf (xs : List (Obj A)) : (ofNodes xs).WF ∧ (ofNodes xs).NoIdle := by
  unfold ofNodes
  have : ∀ g : Graph A, g.WF → g.NoIdle →
      (xs.foldl (fun g x => (visit x (g, [])).1) g).WF ∧
      (xs.foldl (fun g x => (visit x (g, [])).1) g).NoIdle := by
    induction xs with
    | nil => exact fun g h h' => ⟨h, h'⟩
    | cons x xs ih =>
      exact fun g h h' => ih _ (visit_wf x (g, []) h) (visit_idle x (g, []) h')
  exact this _ empty_wf empty_idle

/-- How a program was made, as the drawing shows it: an original program from nothing, a fold or an unfold
from its parent and the program of the definitions, any other from its parent; a fresh copy as
what it is a copy of. -/
inductive Made : Obj A → String → A → List A → Prop where
  | ref (i a) : Made (.ref i a) "ref" a []
  | tr (i n a p) : Made (.tr i n a p) n a [p.cls]
  | fold (i a p d) : Made (.fold i a p d) "fold" a [p.cls, d.cls]
  | unfold (i a p d) : Made (.unfold i a p d) "unfold" a [p.cls, d.cls]
  | fresh (i p l a b) : Made p l a b → Made (.fresh i p) l a b

theorem made_iff (x : Obj A) (e : Edge A) : e = edge x ↔ Made x e.label e.head e.deps := by
  induction x with
  | fresh i p ih =>
    rw [show edge (.fresh i p) = edge p from rfl, ih]
    exact ⟨fun h => .fresh _ _ _ _ _ h, fun h => by cases h; assumption⟩
  | _ =>
    obtain ⟨l, h, b⟩ := e
    constructor
    · intro h; cases h; constructor
    · intro h; cases h; rfl

theorem records_edge (xs : List (Obj A)) (hid : IdsOK xs) (e : Edge A) :
    Has (ofNodes xs) e ↔ ∃ x ∈ xs, ∃ y, Open x y ∧ e = edge y.unfresh := by
  simp only [unfresh_edge]
  unfold ofNodes
  have : ∀ g : Graph A, Has (xs.foldl (fun g x => (visit x (g, [])).1) g) e ↔
      Has g e ∨ ∃ x ∈ xs, ∃ y, Open x y ∧ e = edge y := by
    induction xs with
    | nil => intro g; simp
    | cons x xs ih =>
      intro g
      have hid' : IdsOK xs := fun z hz => hid z (List.mem_cons_of_mem _ hz)
      rw [List.foldl_cons, ih hid']
      have hone : Has (visit x (g, [])).1 e ↔ Has g e ∨ ∃ y, Open x y ∧ e = edge y := by
        constructor
        · exact visit_sound x (g, []) e
        · rintro (h | ⟨y, hy, rfl⟩)
          · exact visit_mono x (g, []) e h
          · exact (visit_complete (Hist x) (fun a b ha hab => hist_trans ha (.step hab .refl))
              (hid x List.mem_cons_self) x .refl (g, []) (fun o _ h => by simp at h)).1 y hy
      rw [hone]
      simp only [List.mem_cons, exists_eq_or_imp, or_assoc]
  rw [this]
  simp [empty_has]

/-- **C77 (recording).**  The graph of a collection has exactly the edges of the programs met in the
histories of its members, where a history is followed up to the first fresh copy on each path, and
the parent of a fresh copy stands for it.  The set of identities shared by the recursive calls
loses nothing. -/
theorem C77_records (xs : List (Obj A)) (hid : IdsOK xs) (e : Edge A) :
    Has (ofNodes xs) e ↔ ∃ x ∈ xs, ∃ y, Open x y ∧ Made y e.label e.head e.deps := by
  rw [records_edge xs hid]
  simp only [unfresh_edge, made_iff]

/-! ## `tidy` -/

section tidy
variable (g : Graph A) (correct : List A)

theorem tidyPass_eq (G : Graph A) :
    tidyPass g correct G =
      (correct.flatMap (fun x => (g.at' x).map (fun et => (x, et)))).foldl
        (fun st p => tidyStep p.1 st p.2) (G, false) := by
  unfold tidyPass
  generalize (G, false) = st
  induction correct generalizing st with
  | nil => rfl
  | cons x xs ih =>
    rw [List.foldl_cons, ih, List.flatMap_cons, List.foldl_append, List.foldl_map]

/-- what the tidied graph is at every moment -/
structure TInv (G : Graph A) : Prop where
  wf : G.WF
  idle : G.NoIdle
  sub : ∀ e, Has G e → Has g e ∧ e.head ∈ correct ∧ ∀ y ∈ e.deps, Built g correct y

variable {g correct}

theorem TInv.key {G : Graph A} (h : TInv g correct G) (y : A) (hy : y ∈ G.keys) :
    Built g correct y := by
  obtain ⟨e, he, rfl⟩ := (key_iff h.wf h.idle y).1 hy
  obtain ⟨h1, h2, h3⟩ := h.sub e he
  exact .mk h2 h1 h3

theorem tidyStep_spec (hg : g.WF) {G : Graph A} {c : Bool} (hI : TInv g correct G)
    {x : A} (hx : x ∈ correct) {et : Edge A × Obj A} (het : et ∈ g.at' x) :
    TInv g correct (tidyStep x (G, c) et).1 ∧
    (∀ e, Has G e → Has (tidyStep x (G, c) et).1 e) ∧
    (c = true → (tidyStep x (G, c) et).2 = true) ∧
    ((tidyStep x (G, c) et).2 = false →
      (∀ e, Has (tidyStep x (G, c) et).1 e ↔ Has G e) ∧
      ((∀ y ∈ et.1.deps, y ∈ G.keys) → Has G et.1)) ∧
    ((tidyStep x (G, c) et).2 = true → c = true ∨
      (¬ Has G et.1 ∧ Has (tidyStep x (G, c) et).1 et.1)) := by
  obtain ⟨h1, h2, h3⟩ := hg.filed x et het
  by_cases hd : et.1.deps.all (· ∈ G.keys) = true
  · have hd' : ∀ y ∈ et.1.deps, y ∈ G.keys := by simpa using hd
    by_cases hm : et.1 ∈ (G.at' x).map Prod.fst
    · have hxk : x ∈ G.keys :=
        (key_iff hI.wf hI.idle x).2 ⟨et.1, ((has_at hI.wf x et.1).1 hm)⟩
      have ht : G.touch x = G := by unfold Graph.touch; rw [if_pos hxk]
      have hs : tidyStep x (G, c) et = (G, c) := by
        unfold tidyStep; simp only [ht]; rw [if_pos hd, if_pos hm]
      rw [hs]
      exact ⟨hI, fun e h => h, fun h => h,
        fun _ => ⟨fun e => Iff.rfl, fun _ => ((has_at hI.wf x et.1).1 hm).1⟩, fun h => Or.inl h⟩
    · have hn : ¬ Has G et.1 := fun h => hm ((has_at hI.wf x et.1).2 ⟨h, h2⟩)
      have hs : tidyStep x (G, c) et = ((G.touch x).add et.2, true) := by
        unfold tidyStep; simp only [touch_at]; rw [if_pos hd, if_neg hm]
      have hhas : ∀ e, Has ((G.touch x).add et.2) e ↔ Has G e ∨ e = et.1 := by
        intro e
        rw [add_has, ← h1]
        unfold Has; rw [touch_at]
      have hadd : (G.touch x).add et.2 = G.add et.2 := by
        have hc : et.2.cls = x := by rw [← edge_head, ← h1, h2]
        have htt : (G.touch x).touch x = G.touch x := by
          exact if_pos ((touch_keys G x x).2 (Or.inr rfl))
        rw [add_eq, add_eq, hc]
        unfold Graph.insert
        rw [htt]
      rw [hs]
      refine ⟨?_, fun e h => (hhas e).2 (Or.inl h), fun _ => rfl, fun h => by simp at h,
        fun _ => Or.inr ⟨hn, (hhas _).2 (Or.inr rfl)⟩⟩
      show TInv g correct ((G.touch x).add et.2)
      refine ⟨by rw [hadd]; exact add_wf hI.wf _, by rw [hadd]; exact add_idle hI.idle _, ?_⟩
      intro e he
      rcases (hhas e).1 he with he | rfl
      · exact hI.sub e he
      · exact ⟨⟨x, List.mem_map_of_mem het⟩, by rw [h2]; exact hx,
          fun y hy => hI.key y (hd' y hy)⟩
  · have hs : tidyStep x (G, c) et = (G, c) := by
      unfold tidyStep; rw [if_neg hd]
    rw [hs]
    refine ⟨hI, fun e h => h, fun h => h, fun _ => ⟨fun e => Iff.rfl, fun h => ?_⟩,
      fun h => Or.inl h⟩
    exact absurd (by simpa using h) hd

theorem run_spec (hg : g.WF) (L : List (A × (Edge A × Obj A)))
    (hL : ∀ p ∈ L, p.1 ∈ correct ∧ p.2 ∈ g.at' p.1) (G : Graph A) (c : Bool)
    (hI : TInv g correct G) :
    let r := L.foldl (fun st p => tidyStep p.1 st p.2) (G, c)
    TInv g correct r.1 ∧ (∀ e, Has G e → Has r.1 e) ∧ (c = true → r.2 = true) ∧
    (r.2 = false → (∀ e, Has r.1 e ↔ Has G e) ∧
      ∀ p ∈ L, (∀ y ∈ p.2.1.deps, y ∈ G.keys) → Has G p.2.1) ∧
    (r.2 = true → c = true ∨ ∃ p ∈ L, ¬ Has G p.2.1 ∧ Has r.1 p.2.1) := by
  induction L generalizing G c with
  | nil => exact ⟨hI, fun e h => h, fun h => h, fun _ => ⟨fun e => Iff.rfl, fun p hp => by simp at hp⟩,
      fun h => Or.inl h⟩
  | cons p L ih =>
    obtain ⟨hp1, hp2⟩ := hL p List.mem_cons_self
    obtain ⟨s1, s2, s3, s4, s5⟩ := tidyStep_spec (c := c) hg hI hp1 hp2
    simp only [List.foldl_cons]
    rcases hst : tidyStep p.1 (G, c) p.2 with ⟨G', c'⟩
    rw [hst] at s1 s2 s3 s4 s5
    obtain ⟨r1, r2, r3, r4, r5⟩ := ih (fun q hq => hL q (List.mem_cons_of_mem _ hq)) G' c' s1
    refine ⟨r1, fun e h => r2 e (s2 e h), fun h => r3 (s3 h), fun h => ?_, fun h => ?_⟩
    · have hc' : c' = false := by
        cases c' with
        | false => rfl
        | true => rw [r3 rfl] at h; cases h
      obtain ⟨s41, s42⟩ := s4 hc'
      obtain ⟨r41, r42⟩ := r4 h
      have hkeys : ∀ y, y ∈ G'.keys ↔ y ∈ G.keys := by
        intro y
        rw [key_iff s1.wf s1.idle, key_iff hI.wf hI.idle]
        simp only at s41
        simp only [s41]
      refine ⟨fun e => (r41 e).trans (s41 e), fun q hq hdeps => ?_⟩
      rcases List.mem_cons.1 hq with rfl | hq
      · exact s42 hdeps
      · exact (s41 _).1 (r42 q hq (fun y hy => (hkeys y).2 (hdeps y hy)))
    · rcases r5 h with hc' | ⟨q, hq, hn, hh⟩
      · rcases s5 hc' with h' | ⟨h1, h2⟩
        · exact Or.inl h'
        · exact Or.inr ⟨p, List.mem_cons_self, h1, r2 _ h2⟩
      · exact Or.inr ⟨q, List.mem_cons_of_mem _ hq, fun h' => hn (s2 _ h'), hh⟩

/-- the edges `tidy` may have to add -/
def edgesOf (g : Graph A) (correct : List A) : Finset (Edge A) :=
  (correct.flatMap (fun x => (g.at' x).map Prod.fst)).toFinset

open Classical in
theorem tidyLoop_spec (hg : g.WF) (n : ℕ) (G : Graph A) (hI : TInv g correct G)
    (hn : ((edgesOf g correct).filter (fun e => ¬ Has G e)).card < n) :
    ∃ G', tidyLoop g correct n G = some G' ∧ TInv g correct G' ∧
      ∀ x ∈ correct, ∀ e, Has g e → e.head = x → (∀ y ∈ e.deps, y ∈ G'.keys) → Has G' e := by
  induction n generalizing G with
  | zero => omega
  | succ n ih =>
    have hL : ∀ p ∈ correct.flatMap (fun x => (g.at' x).map (fun et => (x, et))),
        p.1 ∈ correct ∧ p.2 ∈ g.at' p.1 := by
      intro p hp
      simp only [List.mem_flatMap, List.mem_map] at hp
      obtain ⟨x, hx, et, het, rfl⟩ := hp
      exact ⟨hx, het⟩
    obtain ⟨r1, r2, -, r4, r5⟩ := run_spec hg _ hL G false hI
    rw [← tidyPass_eq] at r1 r2 r4 r5
    unfold tidyLoop
    simp only
    by_cases hc : (tidyPass g correct G).2 = true
    · rw [if_pos hc]
      apply ih _ r1
      rcases r5 hc with h | ⟨p, hp, hn1, hn2⟩
      · cases h
      · refine lt_of_lt_of_le (Finset.card_lt_card ?_) (Nat.lt_succ_iff.1 hn)
        rw [Finset.ssubset_iff_of_subset]
        · refine ⟨p.2.1, ?_, ?_⟩
          · rw [Finset.mem_filter]
            refine ⟨?_, hn1⟩
            obtain ⟨h1, h2⟩ := hL p hp
            unfold edgesOf
            rw [List.mem_toFinset, List.mem_flatMap]
            exact ⟨p.1, h1, List.mem_map_of_mem h2⟩
          · rw [Finset.mem_filter]
            exact fun h => h.2 hn2
        · intro e he
          rw [Finset.mem_filter] at he ⊢
          exact ⟨he.1, fun h => he.2 (r2 e h)⟩
    · rw [if_neg hc]
      have hc' : (tidyPass g correct G).2 = false := by simpa using hc
      obtain ⟨h1, h2⟩ := r4 hc'
      refine ⟨_, rfl, r1, fun x hx e he hex hdeps => ?_⟩
      rw [h1]
      have hmem := (has_at hg x e).2 ⟨he, hex⟩
      obtain ⟨et, het, rfl⟩ := List.mem_map.1 hmem
      refine h2 (x, et) ?_ ?_
      · simp only [List.mem_flatMap, List.mem_map]
        exact ⟨x, hx, et, het, rfl⟩
      · intro y hy
        have := hdeps y hy
        rw [key_iff r1.wf r1.idle] at this
        rw [key_iff hI.wf hI.idle]
        simpa only [h1] using this

theorem empty_tinv : TInv g correct Graph.empty :=
  ⟨empty_wf, empty_idle, fun e h => absurd h (empty_has e)⟩

end tidy

/-- **C77 (tidying).**  For every graph and every list of nodes held to be correct, the loop of
`tidy` ends, after at most one turn more than the graph has edges into these nodes, and the graph it
returns has exactly those edges into correct nodes whose dependencies can all be built from the
ground up with edges into correct nodes; its nodes are exactly those that can be built. -/
theorem C77_tidy (g : Graph A) (hg : g.WF) (correct : List A) (fuel : ℕ)
    (hf : (correct.map (fun x => (g.at' x).length)).sum < fuel) :
    ∃ G, tidy g correct fuel = some G ∧
      (∀ e, Has G e ↔ Has g e ∧ e.head ∈ correct ∧ ∀ y ∈ e.deps, Built g correct y) ∧
      (∀ x, x ∈ G.keys ↔ Built g correct x) := by
  classical
  have hcard : ((edgesOf g correct).filter (fun e => ¬ Has Graph.empty e)).card < fuel := by
    refine lt_of_le_of_lt (Finset.card_filter_le _ _) (lt_of_le_of_lt ?_ hf)
    unfold edgesOf
    refine (List.toFinset_card_le _).trans ?_
    rw [List.length_flatMap]
    simp
  obtain ⟨G, hG, hI, hclosed⟩ := tidyLoop_spec hg fuel Graph.empty empty_tinv (by convert hcard)
  have hkey : ∀ x, Built g correct x → x ∈ G.keys := by
    intro x hx
    induction hx with
    | mk h1 h2 _ ih =>
      exact (key_iff hI.wf hI.idle _).2 ⟨_, hclosed _ h1 _ h2 rfl ih, rfl⟩
  refine ⟨G, hG, fun e => ⟨hI.sub e, fun ⟨h1, h2, h3⟩ => ?_⟩, fun x => ⟨hI.key x, hkey x⟩⟩
  exact hclosed _ h2 e h1 rfl (fun y hy => hkey y (h3 y hy))

/-- The hypothesis of `C77_tidy` holds of every graph the class builds. -/
theorem C77_wellformed (xs : List (Obj A)) : (ofNodes xs).WF := (ofNodes_wf xs).1

/-! ## Histories that are recorded in full -/

/-- Every fresh copy that the traversal of `x` stops at is a copy of a program that it also reaches
by a path without fresh copies.  (So it is for `folds_seq`, `programs.py:80-91`, whose definitions
are a fresh copy of the program itself or members of its lineage.) -/
def Covered (x : Obj A) : Prop := ∀ f, Open x f → IsFresh f → Open x f.unfresh

theorem unfresh_hist (x : Obj A) : Hist x x.unfresh := by
  induction x with
  | fresh i p ih => exact .step .fresh ih
  | _ => exact .refl

theorem covered_open {x : Obj A} (hc : Covered x) {o z : Obj A} (ho : Open x o.unfresh)
    (h : Hist o z) : Open x z.unfresh := by
  induction h with
  | refl => exact ho
  | step h1 h2 ih =>
    rename_i a b c
    apply ih
    by_cases hf : IsFresh a
    · obtain ⟨i, p, rfl⟩ := hf
      cases h1
      exact ho
    · rw [unfresh_of hf] at ho
      have hb : Open x b := open_trans ho (.step hf h1 .refl)
      by_cases hfb : IsFresh b
      · exact hc b hb hfb
      · rwa [unfresh_of hfb]

/-- **C77 (the whole history).**  When fresh copies are covered, the graph has the edge of every
program in the history of every member, and no other. -/
theorem C77_whole_history (xs : List (Obj A)) (hid : IdsOK xs) (hc : ∀ x ∈ xs, Covered x)
    (e : Edge A) :
    Has (ofNodes xs) e ↔ ∃ x ∈ xs, ∃ y, Hist x y ∧ Made y e.label e.head e.deps := by
  simp only [← made_iff]
  rw [records_edge xs hid]
  constructor
  · rintro ⟨x, hx, y, hy, rfl⟩
    exact ⟨x, hx, y, open_hist hy, unfresh_edge y⟩
  · rintro ⟨x, hx, y, hy, rfl⟩
    have h0 : Open x x.unfresh := by
      by_cases hf : IsFresh x
      · exact hc x hx x .refl hf
      · rw [unfresh_of hf]; exact .refl
    have := covered_open (hc x hx) h0 hy
    exact ⟨x, hx, y.unfresh, this, by rw [unfresh_of (unfresh_not y), unfresh_edge]⟩

theorem built_hist {g : Graph A} {correct : List A} (x : Obj A)
    (h : ∀ y, Hist x y → Has g (edge y) ∧ y.cls ∈ correct) : Built g correct x.cls := by
  have hd : ∀ {e : Edge A} {a : A}, e.head = a → a ∈ correct → Has g e →
      (∀ y ∈ e.deps, Built g correct y) → Built g correct a := by
    rintro e a rfl h1 h2 h3; exact .mk h1 h2 h3
  have hs := h x .refl
  induction x with
  | ref i a => exact hd (edge_head _) hs.2 hs.1 (by simp [edge])
  | tr i n a p ih =>
    have hp := ih (fun y hy => h y (.step .tr hy)) (h p (.step .tr .refl))
    exact hd (edge_head _) hs.2 hs.1 (by simpa [edge] using hp)
  | fresh i p ih =>
    exact ih (fun y hy => h y (.step .fresh hy)) (h p (.step .fresh .refl))
  | fold i a p d ih ih' =>
    have hp := ih (fun y hy => h y (.step .foldP hy)) (h p (.step .foldP .refl))
    have hq := ih' (fun y hy => h y (.step .foldD hy)) (h d (.step .foldD .refl))
    exact hd (edge_head _) hs.2 hs.1 (by simpa [edge] using ⟨hp, hq⟩)
  | unfold i a p d ih ih' =>
    have hp := ih (fun y hy => h y (.step .unfoldP hy)) (h p (.step .unfoldP .refl))
    have hq := ih' (fun y hy => h y (.step .unfoldD hy)) (h d (.step .unfoldD .refl))
    exact hd (edge_head _) hs.2 hs.1 (by simpa [edge] using ⟨hp, hq⟩)

theorem made_deps {x : Obj A} (hf : ¬ IsFresh x) {a : A} (ha : a ∈ (edge x).deps) :
    ∃ y, MadeFrom x y ∧ y.cls = a := by
  cases x with
  | ref i b => simp [edge] at ha
  | tr i n b p =>
    simp only [edge, List.mem_singleton] at ha
    exact ⟨p, .tr, ha.symm⟩
  | fresh i p => exact absurd ⟨i, p, rfl⟩ hf
  | fold i b p d =>
    simp only [edge, List.mem_cons, List.not_mem_nil, or_false] at ha
    rcases ha with rfl | rfl
    exacts [⟨p, .foldP, rfl⟩, ⟨d, .foldD, rfl⟩]
  | unfold i b p d =>
    simp only [edge, List.mem_cons, List.not_mem_nil, or_false] at ha
    rcases ha with rfl | rfl
    exacts [⟨p, .unfoldP, rfl⟩, ⟨d, .unfoldD, rfl⟩]

/-- **C77 (nothing is lost).**  When fresh copies are covered, tidying with every node held to be
correct returns the same graph. -/
theorem C77_tidy_all (xs : List (Obj A)) (hid : IdsOK xs) (hc : ∀ x ∈ xs, Covered x)
    (correct : List A) (hcor : ∀ x ∈ xs, ∀ y, Hist x y → y.cls ∈ correct) (fuel : ℕ)
    (hf : (correct.map (fun x => ((ofNodes xs).at' x).length)).sum < fuel) :
    ∃ G, tidy (ofNodes xs) correct fuel = some G ∧
      (∀ e, Has G e ↔ Has (ofNodes xs) e) ∧
      (∀ a, a ∈ G.keys ↔ a ∈ (ofNodes xs).keys) := by
  obtain ⟨hw, hi⟩ := ofNodes_wf xs
  obtain ⟨G, hG, h1, h2⟩ := C77_tidy (ofNodes xs) hw correct fuel hf
  have hwhole : ∀ e, Has (ofNodes xs) e ↔ ∃ x ∈ xs, ∃ y, Hist x y ∧ e = edge y := fun e => by
    simpa only [← made_iff] using C77_whole_history xs hid hc e
  have hb : ∀ x ∈ xs, ∀ y, Hist x y → Built (ofNodes xs) correct y.cls := fun x hx y hy =>
    built_hist y (fun z hz =>
      ⟨(hwhole _).2 ⟨x, hx, z, hist_trans hy hz, rfl⟩, hcor x hx z (hist_trans hy hz)⟩)
  have hE : ∀ e, Has G e ↔ Has (ofNodes xs) e := by
    intro e
    rw [h1]
    refine ⟨fun h => h.1, fun h => ⟨h, ?_⟩⟩
    obtain ⟨x, hx, y, hy, rfl⟩ := (hwhole e).1 h
    refine ⟨by rw [edge_head]; exact hcor x hx y hy, fun a ha => ?_⟩
    rw [← unfresh_edge] at ha
    obtain ⟨z, hz, rfl⟩ := made_deps (unfresh_not y) ha
    exact hb x hx z (hist_trans hy (hist_trans (unfresh_hist y) (.step hz .refl)))
  refine ⟨G, hG, hE, fun a => ?_⟩
  rw [h2, key_iff hw hi]
  constructor
  · intro h
    cases h with
    | mk _ h _ => exact ⟨_, h, rfl⟩
  · rintro ⟨e, he, rfl⟩
    obtain ⟨x, hx, y, hy, rfl⟩ := (hwhole e).1 he
    rw [edge_head]
    exact hb x hx y hy

/-- The hyperedges of `hg` are the edges of the graph. -/
theorem C77_hg (xs : List (Obj A)) (x : A) (l : String) (b : List A) :
    (x, l, b) ∈ hg (ofNodes xs) ↔ Has (ofNodes xs) ⟨l, x, b⟩ := by
  obtain ⟨hw, -⟩ := ofNodes_wf xs
  unfold hg
  simp only [List.mem_flatMap, List.mem_map, Prod.mk.injEq]
  constructor
  · rintro ⟨y, hy, et, het, rfl, rfl, rfl⟩
    have h2 := (hw.filed y et het).2.1
    refine ⟨y, List.mem_map.2 ⟨et, het, ?_⟩⟩
    rw [← h2]
  · rintro ⟨y, hy⟩
    obtain ⟨et, het, he⟩ := List.mem_map.1 hy
    have h2 := (hw.filed y et het).2.1
    refine ⟨y, hw.key y (List.ne_nil_of_mem het), et, het, ?_, ?_, ?_⟩
    · rw [← h2, he]
    · rw [he]
    · rw [he]

/-! ## Fresh copies that are not covered -/

/-- the programs of a history, for the concrete cases -/
def objs : Obj A → List (Obj A)
  | .ref i a => [.ref i a]
  | .tr i n a p => .tr i n a p :: objs p
  | .fresh i p => .fresh i p :: objs p
  | .fold i a p d => .fold i a p d :: (objs p ++ objs d)
  | .unfold i a p d => .unfold i a p d :: (objs p ++ objs d)

theorem hist_objs {x y : Obj A} (h : Hist x y) : y ∈ objs x := by
  induction h with
  | refl => rename_i x; cases x <;> simp [objs]
  | step h1 _ ih => cases h1 <;> simp [objs, ih]

/-- the history of `exFold`: a program `0`, unfolded to `1`, whose fresh copy serves as the
definitions for a fold `3` of another program `2` -/
def exDefs : Obj ℕ := .unfold 1 1 (.ref 0 0) (.ref 0 0)
def exFold : Obj ℕ := .fold 4 3 (.ref 2 2) (.fresh 3 exDefs)

/-- **C77 (fresh copies).**  `add_parents` does not go beyond a fresh copy (`programs.py:295-296`),
so the history of definitions that were given as a fresh copy is lost, and `tidy` then drops a
program although every program of its history is held to be correct. -/
theorem C77_fresh_drops :
    (∀ y, Hist exFold y → y.cls ∈ [0, 1, 2, 3]) ∧
    (∃ y, Hist exFold y ∧ ¬ Has (ofNodes [exFold]) (edge y)) ∧
    (tidy (ofNodes [exFold]) [0, 1, 2, 3] 10).map (fun G => G.keys) = some [2] := by
  refine ⟨?_, ⟨.ref 0 0, ?_, ?_⟩, by decide +kernel⟩
  · intro y hy
    have : ∀ y ∈ objs exFold, y.cls ∈ [0, 1, 2, 3] := by decide +kernel
    exact this y (hist_objs hy)
  · exact .step .foldD (.step .fresh (.step .unfoldP .refl))
  · rintro ⟨x, hx⟩
    have hk : x ∈ (ofNodes [exFold]).keys :=
      (ofNodes_wf [exFold]).1.key x (by intro h; rw [h] at hx; simp at hx)
    have : ∀ x ∈ (ofNodes [exFold]).keys,
        edge (Obj.ref 0 0) ∉ ((ofNodes [exFold]).at' x).map Prod.fst := by decide +kernel
    exact this x hk hx

/-! ## Concrete cases -/

/-- unfold and fold back: `0 → 1 → 0`, with a fresh copy of `1`'s own parent as definitions -/
def exBack : Obj ℕ := .fold 3 0 (.unfold 1 1 (.ref 0 0) (.ref 0 0)) (.fresh 2 (.ref 0 0))

/-- a cycle in the graph is kept when it is supported by the original program … -/
example : (tidy (ofNodes [exBack]) [0, 1] 10).map (fun G => (G.keys, (G.at' 0).length)) =
    some ([0, 1], 2) := by decide +kernel

/-- … and dropped when it is not: an unfold and a fold that support only each other -/
example : (tidy (((Graph.empty : Graph ℕ).add exBack).add (.unfold 1 1 (.ref 0 0) (.ref 0 0)))
    [0, 1] 10).map (fun G => G.keys) = some [] := by decide +kernel

/-- nothing is built on a node that is not held to be correct -/
example : (tidy (ofNodes [exBack]) [1] 10).map (fun G => G.keys) = some [] := by decide +kernel

example : ((ofNodes [exBack]).keys, ((ofNodes [exBack]).at' 0).map Prod.fst) =
    ([0, 1], [⟨"fold", 0, [1, 0]⟩, ⟨"ref", 0, []⟩]) := by decide +kernel

/-- the hypotheses of `C77_records` and `C77_whole_history` on `exBack` -/
example : IdsOK [exBack, exFold] := by
  have : ∀ x ∈ [exBack, exFold], ∀ a ∈ objs x, ∀ b ∈ objs x, a.id = b.id → a = b := by
    decide +kernel
  exact fun x hx a b ha hb => this x hx a (hist_objs ha) b (hist_objs hb)

example : Covered exBack := by
  intro f hf hfr
  rcases open_inv hf with rfl | ⟨_, y, hy, hyf⟩
  · obtain ⟨_, _, h⟩ := hfr; cases h
  have nf : ¬ IsFresh exBack := by rintro ⟨_, _, h⟩; cases h
  cases hy with
  | foldP =>
    rcases open_inv hyf with rfl | ⟨_, z, hz, hzf⟩
    · obtain ⟨_, _, h⟩ := hfr; cases h
    cases hz with
    | unfoldP =>
      rcases open_inv hzf with rfl | ⟨_, w, hw, _⟩
      · obtain ⟨_, _, h⟩ := hfr; cases h
      · cases hw
    | unfoldD =>
      rcases open_inv hzf with rfl | ⟨_, w, hw, _⟩
      · obtain ⟨_, _, h⟩ := hfr; cases h
      · cases hw
  | foldD =>
    rcases open_inv hyf with rfl | ⟨h, _⟩
    · refine .step nf .foldP (.step ?_ .unfoldP .refl)
      rintro ⟨_, _, h⟩; cases h
    · exact absurd ⟨_, _, rfl⟩ h

end PG
end Verif
