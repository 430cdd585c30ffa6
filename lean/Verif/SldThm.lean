/-
Property C70: `sld` enumerates the derivations of a query, each exactly once.
-/
import Verif.Sld
import Verif.DerivThm

set_option linter.unusedSectionVars false
set_option linter.unusedSimpArgs false

namespace Verif
open Tm Heap

namespace Sld
open Solver (forEach forEach_restores RunCalls litVars Safe GSub InRule Bnd noHeap good_noHeap restr restr_in restr_head)
open Query (FnOk constSub)
open Deriv (Fits Top Valid ValidL IsDeriv item base)
variable {K S : Type}

/-! ### The specification -/

mutual
/-- a substitution applied to the terms of a tree -/
def subD (σ : Nat → Tm) : Deriv K → Deriv K
  | .const k => .const k
  | .bi x y => .bi (x.sub σ) (y.sub σ)
  | .node i x ds => .node i (x.sub σ) (subDL σ ds)
def subDL (σ : Nat → Tm) : List (Deriv K) → List (Deriv K)
  | [] => []
  | d :: ds => subD σ d :: subDL σ ds
end

mutual
/-- every node is an instance, not necessarily ground, of the rule with its number -/
def Inst (rules : List (SRule K)) : Deriv K → Prop
  | .const _ => True
  | .bi _ _ => True
  | .node i x ds => (∃ r σ, rules[i]? = some r ∧ x = r.head.sub σ ∧ List.Forall₂ (Fits σ) r.body ds) ∧ InstL rules ds
def InstL (rules : List (SRule K)) : List (Deriv K) → Prop
  | [] => True
  | d :: ds => Inst rules d ∧ InstL rules ds
end

mutual
/-- the shape of a tree: the numbers of the rules -/
def shape : Deriv K → Deriv K
  | .const k => .const k
  | .bi _ _ => .bi (.app []) (.app [])
  | .node i _ ds => .node i (.app []) (shapeL ds)
def shapeL : List (Deriv K) → List (Deriv K)
  | [] => []
  | d :: ds => shape d :: shapeL ds
end

/-- rules that can be found by the functor of their head and whose subgoals have a constant functor -/
structure Formed (r : SRule K) : Prop where
  head : ∃ c as, r.head = .app (.con c :: as)
  body : ∀ z ∈ r.body, FnOk z

/-! ### Running a generator, possibly not to the end -/

/-- the consumer `k` is run at the given yields, in order; it falls through at all of them except possibly the last
one; after the last one the generator ends or raises -/
inductive Runs {α S : Type} (k : α → Body S) : List (α × Heap) → S → S → Sig → Prop
  | nil (s) : Runs k [] s s .done
  | fail (s n) : Runs k [] s s (.exc n)
  | stop {a h s s1 sig} : sig ≠ .done → k a h s = some (h, s1, sig) → Runs k [(a, h)] s s1 sig
  | cons {a h L s s1 s2 sig} : k a h s = some (h, s1, .done) → Runs k L s1 s2 sig → Runs k ((a, h) :: L) s s2 sig

theorem Runs.append {α : Type} {k : α → Body S} {L L' : List (α × Heap)} {s s1 s2 : S} {sig : Sig}
    (h1 : Runs k L s s1 .done) (h2 : Runs k L' s1 s2 sig) : Runs k (L ++ L') s s2 sig := by
  generalize hd : Sig.done = d at h1
  induction h1 with
  | nil => exact h2
  | fail s n => cases hd
  | stop hn e => exact absurd hd.symm hn
  | cons e _ ih => exact .cons e (ih h2 hd)

/-- the consumer of one generator runs another one -/
theorem Runs.bind {α β : Type} {K' : α → Body S} {k : β → Body S} {P : α × Heap → List (β × Heap) → Prop → Prop} (hP : ∀ p L, P p L True → P p L False)
    {L : List (α × Heap)} {s s' : S} {sig : Sig} (h : Runs K' L s s' sig)
    (hk : ∀ p ∈ L, ∀ s s' sig, K' p.1 p.2 s = some (p.2, s', sig) → ∃ M, Runs k M s s' sig ∧ P p M (sig = .done)) :
    ∃ Ms, List.Forall₂ (fun p M => P p M (sig = .done)) L Ms ∧ Runs k Ms.flatten s s' sig := by
  induction h with
  | nil s => exact ⟨[], .nil, .nil _⟩
  | fail s n => exact ⟨[], .nil, .fail _ _⟩
  | @stop a h s s1 sig hn e =>
    obtain ⟨M, h1, h2⟩ := hk (a, h) (by simp) _ _ _ e
    exact ⟨[M], .cons h2 .nil, by simpa using h1⟩
  | @cons a h L s s1 s2 sig e _ ih =>
    obtain ⟨M, h1, h2⟩ := hk (a, h) (by simp) _ _ _ e
    obtain ⟨Ms, h3, h4⟩ := ih fun p hp => hk p (by simp [hp])
    refine ⟨M :: Ms, .cons ?_ h3, h1.append h4⟩
    simp only [eq_self_iff_true] at h2
    by_cases hs : sig = .done
    · simpa [hs] using h2
    · simpa [hs] using hP _ _ h2

theorem Runs.map {α β : Type} {k : β → Body S} {φ : α → β} {L : List (α × Heap)} {s s' : S} {sig : Sig}
    (h : Runs (fun a => k (φ a)) L s s' sig) : Runs k (L.map fun p => (φ p.1, p.2)) s s' sig := by
  induction h with
  | nil s => exact .nil _
  | fail s n => exact .fail _ _
  | stop hn e => exact .stop hn e
  | cons e _ ih => exact .cons e ih

theorem forEach_runs {α : Type} {b : α → Body S} (hb : ∀ a, Restores (b a)) {h : Heap} : ∀ {l : List α} {s h' s' sig},
    forEach l b h s = some (h', s', sig) → ∃ l1, Runs b (l1.map fun a => (a, h)) s s' sig ∧ l1 <+: l ∧ (sig = .done → l1 = l) := by
  intro l
  induction l with
  | nil =>
    intro s h' s' sig e
    simp only [forEach, Option.some.injEq, Prod.mk.injEq] at e
    obtain ⟨_, rfl, rfl⟩ := e
    exact ⟨[], .nil _, List.prefix_refl _, fun _ => rfl⟩
  | cons a l ih =>
    intro s h' s' sig e
    simp only [forEach] at e
    cases hq : b a h s with
    | none => simp [hq] at e
    | some q =>
      obtain ⟨h1, s1, sg⟩ := q
      have := hb a _ _ _ _ _ hq
      subst this
      simp only [hq] at e
      cases sg with
      | done =>
        obtain ⟨l1, r1, r2, r3⟩ := ih e
        exact ⟨a :: l1, .cons hq r1, List.cons_prefix_cons.2 ⟨rfl, r2⟩, fun hs => by rw [r3 hs]⟩
      | brk =>
        simp only [Option.some.injEq, Prod.mk.injEq] at e
        obtain ⟨_, rfl, rfl⟩ := e
        exact ⟨[a], .stop (by simp) hq, ⟨l, rfl⟩, by simp⟩
      | exc n =>
        simp only [Option.some.injEq, Prod.mk.injEq] at e
        obtain ⟨_, rfl, rfl⟩ := e
        exact ⟨[a], .stop (by simp) hq, ⟨l, rfl⟩, by simp⟩

/-- a unification, however its consumer ends -/
theorem unify_any {f : Nat} {x y : Tm} {h : Heap} (hg : Good h) {body : Body S} (hb : Restores body) {s h' s' sig}
    (e : unifyF f x y body h s = some (h', s', sig)) :
    h' = h ∧ (((∀ τ, Respects h τ → x.sub τ ≠ y.sub τ) ∧ s' = s ∧ sig = .done) ∨
      ∃ h1, Good h1 ∧ (∀ τ, Respects h1 τ ↔ Respects h τ ∧ x.sub τ = y.sub τ) ∧ body h1 s = some (h1, s', sig)) := by
  refine ⟨C03_no_trace f x y hb _ _ _ _ _ e, ?_⟩
  obtain ⟨r, hs, hr⟩ := unify_run hg x y
  have e := hr _ _ _ _ e
  cases hs with
  | fail hf =>
    simp only [run, Option.some.injEq, Prod.mk.injEq] at e
    exact .inl ⟨hf, e.2.1.symm, e.2.2.symm⟩
  | ok bs g1 g2 g3 g4 g5 =>
    simp only [run] at e
    cases hq : body (bindAll h bs) s with
    | none => simp [hq] at e
    | some q =>
      obtain ⟨h1, s1, sig⟩ := q
      simp only [hq, Option.some.injEq, Prod.mk.injEq] at e
      obtain ⟨_, rfl, rfl⟩ := e
      have := hb _ _ _ _ _ hq
      subst this
      exact .inr ⟨bindAll h bs, g1, g2, hq⟩

/-! ### Fresh variables -/

/-- what the store says depends on the variables below `nx` only -/
def Below (h : Heap) (nx : Nat) : Prop := ∀ τ τ', (∀ n < nx, τ n = τ' n) → Respects h τ → Respects h τ'

theorem Below.mono {h : Heap} {nx m : Nat} (hb : Below h nx) (hm : nx ≤ m) : Below h m :=
  fun τ τ' e => hb τ τ' fun n hn => e n (by omega)

theorem Below.unify {h h1 : Heap} {nx : Nat} (hb : Below h nx) {x y : Tm} (hx : ∀ n ∈ vars x, n < nx) (hy : ∀ n ∈ vars y, n < nx)
    (h1e : ∀ τ, Respects h1 τ ↔ Respects h τ ∧ x.sub τ = y.sub τ) : Below h1 nx := by
  intro τ τ' e hr
  rw [h1e] at hr ⊢
  refine ⟨hb τ τ' e hr.1, ?_⟩
  rw [← sub_congr fun n hn => e n (hx n hn), ← sub_congr fun n hn => e n (hy n hn)]
  exact hr.2

theorem lt_bound {t : Tm} {n : Nat} (h : n ∈ vars t) : n < bound t := Finset.le_sup (f := (· + 1)) h

theorem lt_boundLit {z : BLit K} {n : Nat} (h : n ∈ litVars z) : n < boundLit z := by
  cases z with
  | val c => simp [litVars] at h
  | sub t => exact lt_bound h
  | eq x y =>
    rcases Finset.mem_union.1 h with h | h
    · exact lt_of_lt_of_le (lt_bound h) (le_max_left _ _)
    · exact lt_of_lt_of_le (lt_bound h) (le_max_right _ _)
  | cmp o x y =>
    rcases Finset.mem_union.1 h with h | h
    · exact lt_of_lt_of_le (lt_bound h) (le_max_left _ _)
    · exact lt_of_lt_of_le (lt_bound h) (le_max_right _ _)

theorem lt_width {r : SRule K} {n : Nat} (h : InRule r n) : n < width r := by
  unfold width
  rcases h with h | ⟨z, hz, h⟩
  · have : ∀ l : List (BLit K), bound r.head ≤ l.foldr (fun z n => max (boundLit z) n) (bound r.head) := by
      intro l
      induction l with
      | nil => exact le_refl _
      | cons z l ih => exact le_trans ih (le_max_right _ _)
    exact lt_of_lt_of_le (lt_bound h) (this _)
  · have : ∀ l : List (BLit K), z ∈ l → boundLit z ≤ l.foldr (fun z n => max (boundLit z) n) (bound r.head) := by
      intro l hl
      induction l with
      | nil => simp at hl
      | cons z' l ih =>
        rcases List.mem_cons.1 hl with rfl | hl
        · exact le_max_left _ _
        · exact le_trans (ih hl) (le_max_right _ _)
    exact lt_of_lt_of_le (lt_boundLit h) (this _ hz)

theorem sub_shift {nx : Nat} {t : Tm} {τ : Nat → Tm} : (shift nx t).sub τ = t.sub fun n => τ (nx + n) := by
  unfold shift
  rw [sub_sub]
  simp

theorem mem_shift {nx : Nat} {t : Tm} {n : Nat} (h : n ∈ vars (shift nx t)) : ∃ m ∈ vars t, n = nx + m := by
  unfold shift at h
  rw [mem_vars_sub] at h
  simpa using h

theorem mem_shiftLit {nx : Nat} {z : BLit K} {n : Nat} (h : n ∈ litVars (shiftLit nx z)) : ∃ m ∈ litVars z, n = nx + m := by
  cases z with
  | val c => simp [shiftLit, litVars] at h
  | sub t => exact mem_shift h
  | eq x y =>
    rcases Finset.mem_union.1 h with h | h
    · obtain ⟨m, hm, e⟩ := mem_shift h; exact ⟨m, Finset.mem_union_left _ hm, e⟩
    · obtain ⟨m, hm, e⟩ := mem_shift h; exact ⟨m, Finset.mem_union_right _ hm, e⟩
  | cmp o x y =>
    rcases Finset.mem_union.1 h with h | h
    · obtain ⟨m, hm, e⟩ := mem_shift h; exact ⟨m, Finset.mem_union_left _ hm, e⟩
    · obtain ⟨m, hm, e⟩ := mem_shift h; exact ⟨m, Finset.mem_union_right _ hm, e⟩

theorem fits_shift {nx : Nat} {z : BLit K} {τ : Nat → Tm} {d : Deriv K} : Fits τ (shiftLit nx z) d ↔ Fits (fun n => τ (nx + n)) z d := by
  cases z <;> simp [shiftLit, Fits, sub_shift]

theorem fits_congr {τ τ' : Nat → Tm} {z : BLit K} {d : Deriv K} (h : ∀ n ∈ litVars z, τ n = τ' n) (hf : Fits τ z d) : Fits τ' z d := by
  cases z with
  | val c => exact hf
  | sub t => simp only [Fits, litVars] at *; rw [← sub_congr h]; exact hf
  | eq x y =>
    simp only [Fits, litVars, Finset.mem_union] at *
    rw [← sub_congr fun n hn => h n (.inl hn), ← sub_congr fun n hn => h n (.inr hn)]; exact hf
  | cmp o x y =>
    simp only [Fits, litVars, Finset.mem_union] at *
    rw [← sub_congr fun n hn => h n (.inl hn), ← sub_congr fun n hn => h n (.inr hn)]; exact hf

mutual
theorem shape_sub (σ : Nat → Tm) : ∀ d : Deriv K, shape (subD σ d) = shape d
  | .const k => by simp [subD]
  | .bi x y => by simp [subD, shape]
  | .node i x ds => by simp [subD, shape, shapeL_sub σ ds]
theorem shapeL_sub (σ : Nat → Tm) : ∀ ds : List (Deriv K), shapeL (subDL σ ds) = shapeL ds
  | [] => by simp [subDL]
  | d :: ds => by simp [subDL, shapeL, shape_sub σ d, shapeL_sub σ ds]
end

/-! ### What is enumerated -/

/-- the yields of a generator of trees from store `h` and mark `nx`; `tgt τ D` says that `D` is an answer for the
instance `τ` of the query, `full` that the generator has ended -/
structure Yields {α : Type} (sb : (Nat → Tm) → α → α) (sh : α → α) (h : Heap) (nx : Nat) (tgt : (Nat → Tm) → α → Prop)
    (L : List ((α × Nat) × Heap)) (full : Prop) : Prop where
  good : ∀ p ∈ L, Good p.2
  mark : ∀ p ∈ L, nx ≤ p.1.2
  below : ∀ p ∈ L, Below p.2 p.1.2
  local' : ∀ p ∈ L, ∀ τ τ', (∀ n < p.1.2, τ n = τ' n) → sb τ p.1.1 = sb τ' p.1.1
  sound : ∀ p ∈ L, ∀ τ, Respects p.2 τ → Respects h τ ∧ tgt τ (sb τ p.1.1)
  nodup : (L.map fun p => sh p.1.1).Nodup
  complete : full → ∀ τ D, Respects h τ → tgt τ D → ∃ p ∈ L, ∃ τ', (∀ n < nx, τ' n = τ n) ∧ Respects p.2 τ' ∧ sb τ' p.1.1 = D

theorem Yields.partial {α : Type} {sb : (Nat → Tm) → α → α} {sh : α → α} {h : Heap} {nx : Nat} {tgt : (Nat → Tm) → α → Prop}
    {L : List ((α × Nat) × Heap)} {full : Prop} (hy : Yields sb sh h nx tgt L full) {full' : Prop} (hf : full' → full) : Yields sb sh h nx tgt L full' :=
  ⟨hy.good, hy.mark, hy.below, hy.local', hy.sound, hy.nodup, fun f => hy.complete (hf f)⟩

/-- answers for one subgoal, for a conjunction -/
def tgtZ (rules : List (SRule K)) (z : BLit K) (τ : Nat → Tm) (D : Deriv K) : Prop := Fits τ z D ∧ Inst rules D

def tgtL (rules : List (SRule K)) (zs : List (BLit K)) (τ : Nat → Tm) (Ds : List (Deriv K)) : Prop :=
  List.Forall₂ (Fits τ) zs Ds ∧ InstL rules Ds

/-- a subgoal that `lookup` can answer -/
def QOk (h : Heap) (z : BLit K) : Prop := FnOk z ∨ ∃ n, z = .sub (.var n) ∧ h n = none

theorem single {α : Type} {sb : (Nat → Tm) → α → α} {sh : α → α} {h h1 : Heap} {nx : Nat} {tgt : (Nat → Tm) → α → Prop} {d : α} {full : Prop}
    (hg : Good h1) (hb : Below h1 nx) (hl : ∀ τ τ', (∀ n < nx, τ n = τ' n) → sb τ d = sb τ' d)
    (hs : ∀ τ, Respects h1 τ → Respects h τ ∧ tgt τ (sb τ d)) (hc : ∀ τ D, Respects h τ → tgt τ D → Respects h1 τ ∧ sb τ d = D) :
    Yields sb sh h nx tgt [((d, nx), h1)] full := by
  refine ⟨?_, ?_, ?_, ?_, ?_, by simp, fun _ τ D hτ hD => ⟨((d, nx), h1), by simp, τ, fun _ _ => rfl, (hc τ D hτ hD).1, (hc τ D hτ hD).2⟩⟩
  all_goals
    intro p hp
    simp only [List.mem_singleton] at hp
    subst hp
  · exact hg
  · exact le_refl _
  · exact hb
  · exact hl
  · exact hs

theorem empty {α : Type} {sb : (Nat → Tm) → α → α} {sh : α → α} {h : Heap} {nx : Nat} {tgt : (Nat → Tm) → α → Prop} {full : Prop}
    (hc : full → ∀ τ D, Respects h τ → ¬ tgt τ D) : Yields sb sh h nx tgt [] full :=
  ⟨by simp, by simp, by simp, by simp, by simp, by simp, fun hf τ D hτ hD => absurd hD (hc hf τ D hτ)⟩

mutual
theorem sldF_restores {rules : List (SRule K)} : ∀ (f nx : Nat) (z : BLit K) (k : Deriv K → Nat → Body S), (∀ d m, Restores (k d m)) →
    Restores (sldF rules f nx z k)
  | 0, _, _, _, _ => by intro h s h' s' sig e; simp [sldF] at e
  | f + 1, nx, z, k, hk => by
    intro h s h' s' sig e
    cases z with
    | val c => simp only [sldF] at e; exact hk _ _ _ _ _ _ _ e
    | eq x y => simp only [sldF] at e; exact C03_no_trace f x y (hk _ _) _ _ _ _ _ e
    | cmp o x y =>
      simp only [sldF] at e
      split at e
      · split at e
        · exact hk _ _ _ _ _ _ _ e
        · simp at e; exact e.1.symm
      · simp at e; exact e.1.symm
      · simp at e
    | sub q =>
      simp only [sldF] at e
      split at e
      · simp at e
      · simp at e; exact e.1.symm
      · refine forEach_restores (fun p => ?_) _ _ _ _ _ _ e
        intro h s h' s' sig e
        exact C03_no_trace f _ _ (sldLF_restores f _ _ _ fun ds m => hk _ _) _ _ _ _ _ e
theorem sldLF_restores {rules : List (SRule K)} : ∀ (f nx : Nat) (zs : List (BLit K)) (k : List (Deriv K) → Nat → Body S), (∀ d m, Restores (k d m)) →
    Restores (sldLF rules f nx zs k)
  | 0, _, _, _, _ => by intro h s h' s' sig e; simp [sldLF] at e
  | f + 1, nx, [], k, hk => by intro h s h' s' sig e; simp only [sldLF] at e; exact hk _ _ _ _ _ _ _ e
  | f + 1, nx, z :: zs, k, hk => by
    intro h s h' s' sig e
    simp only [sldLF] at e
    exact sldF_restores f _ _ _ (fun d m => sldLF_restores f _ _ _ fun ds m => hk _ _) _ _ _ _ _ e
end

theorem forall₂_mem {α β : Type} {R : α → β → Prop} {l : List α} {l' : List β} (h : List.Forall₂ R l l') :
    (∀ b ∈ l', ∃ a ∈ l, R a b) ∧ ∀ a ∈ l, ∃ b ∈ l', R a b := by
  induction h with
  | nil => simp
  | cons h1 _ ih =>
    refine ⟨fun b hb => ?_, fun a ha => ?_⟩
    · rcases List.mem_cons.1 hb with rfl | hb
      · exact ⟨_, by simp, h1⟩
      · obtain ⟨a, ha, h⟩ := ih.1 b hb; exact ⟨a, by simp [ha], h⟩
    · rcases List.mem_cons.1 ha with rfl | ha
      · exact ⟨_, by simp, h1⟩
      · obtain ⟨b, hb, h⟩ := ih.2 a ha; exact ⟨b, by simp [hb], h⟩

theorem flatten_nodup {α β γ : Type} {R : α → List β → Prop} {g : β → γ} {l : List α} {Ms : List (List β)} (h : List.Forall₂ R l Ms)
    (hn : ∀ a ∈ l, ∀ M, R a M → (M.map g).Nodup)
    (hd : l.Pairwise fun a a' => ∀ M M', R a M → R a' M' → ∀ b ∈ M, ∀ b' ∈ M', g b ≠ g b') : (Ms.flatten.map g).Nodup := by
  induction h with
  | nil => simp
  | @cons a M l Ms h1 h2 ih =>
    rw [List.pairwise_cons] at hd
    rw [List.flatten_cons, List.map_append, List.nodup_append]
    refine ⟨hn a (by simp) M h1, ih (fun a ha => hn a (by simp [ha])) hd.2, ?_⟩
    intro x hx y hy
    obtain ⟨b, hb, rfl⟩ := List.mem_map.1 hx
    obtain ⟨b', hb', rfl⟩ := List.mem_map.1 hy
    obtain ⟨M', hM', hb'⟩ := List.mem_flatten.1 hb'
    obtain ⟨a', ha', hR⟩ := (forall₂_mem h2).1 M' hM'
    exact hd.1 a' ha' M M' h1 hR b hb b' hb'

/-- `τ` below the mark, the copy of `σ` from there on -/
def ext (nx : Nat) (τ σ : Nat → Tm) : Nat → Tm := fun n => if n < nx then τ n else σ (n - nx)

theorem ext_lt {nx n : Nat} {τ σ : Nat → Tm} (h : n < nx) : ext nx τ σ n = τ n := by simp [ext, h]

theorem ext_shift {nx : Nat} {τ σ : Nat → Tm} : (fun n => ext nx τ σ (nx + n)) = σ := by
  funext n; simp [ext]

theorem offered_sub {rules : List (SRule K)} {q : Tm} : (offered rules q).Sublist rules.zipIdx := by
  unfold offered
  split
  · exact List.Sublist.refl _
  · exact List.filter_sublist
  · exact List.nil_sublist _

theorem offered_mem {rules : List (SRule K)} {q : Tm} {p : SRule K × Nat} (h : p ∈ offered rules q) : rules[p.2]? = some p.1 :=
  List.mem_zipIdx_iff_getElem?.1 (offered_sub.subset h)

/-- the answers for `q` by the rule with number `i` -/
def tgtR (rules : List (SRule K)) (q : Tm) (i : Nat) (τ : Nat → Tm) (D : Deriv K) : Prop :=
  (∃ x ds, D = .node i x ds) ∧ tgtZ rules (.sub q) τ D

/-- one rule -/
theorem rule_yields {rules : List (SRule K)} {nx : Nat} {q : Tm} (hq : ∀ n ∈ vars q, n < nx) {h : Heap} (hg : Good h) (hb : Below h nx)
    {r : SRule K} {i : Nat} (hi : rules[i]? = some r) {k : Deriv K → Nat → Body S} (hk : ∀ d m, Restores (k d m)) {f : Nat}
    (ih : ∀ nx zs (k : List (Deriv K) → Nat → Body S) h s h' s' sig, (∀ z ∈ zs, ∀ n ∈ litVars z, n < nx) → Below h nx → Good h → (∀ z ∈ zs, FnOk z) →
      (∀ d m, Restores (k d m)) → sldLF rules f nx zs k h s = some (h', s', sig) →
      ∃ L, Runs (fun p : List (Deriv K) × Nat => k p.1 p.2) L s s' sig ∧ Yields subDL shapeL h nx (tgtL rules zs) L (sig = .done))
    (hr : Formed r) {s s' : S} {sig : Sig}
    (e : unifyF f (shift nx r.head) q (sldLF rules f (nx + width r) (r.body.map (shiftLit nx)) fun ds nx' => k (.node i (shift nx r.head) ds) nx') h s
      = some (h, s', sig)) :
    ∃ M, Runs (fun p : Deriv K × Nat => k p.1 p.2) M s s' sig ∧ Yields subD shape h nx (tgtR rules q i) M (sig = .done) := by
  -- an answer by this rule unifies its head with the query
  have key : ∀ τ x ds, Respects h τ → tgtR rules q i τ (.node i x ds) → ∃ σ, Respects h (ext nx τ σ) ∧
      (shift nx r.head).sub (ext nx τ σ) = q.sub (ext nx τ σ) ∧ x = r.head.sub σ ∧ List.Forall₂ (Fits σ) r.body ds ∧ InstL rules ds := by
    rintro τ x ds hτ ⟨_, hfit, hinst⟩
    simp only [Inst] at hinst
    obtain ⟨⟨r', σ, hi', hx, hkids⟩, hL⟩ := hinst
    rw [hi] at hi'
    obtain rfl := Option.some.inj hi'
    refine ⟨σ, hb τ _ (fun n hn => (ext_lt hn).symm) hτ, ?_, hx, hkids, hL⟩
    rw [sub_shift, ext_shift, ← hx, sub_congr (σ := ext nx τ σ) (τ := τ) fun n hn => ext_lt (hq n hn)]
    exact hfit.2
  have hhead : ∀ n ∈ vars (shift nx r.head), n < nx + width r := by
    intro n hn
    obtain ⟨m, hm, rfl⟩ := mem_shift hn
    have := lt_width (r := r) (.inl hm)
    omega
  have hbody : ∀ z ∈ r.body.map (shiftLit nx), ∀ n ∈ litVars z, n < nx + width r := by
    intro z hz n hn
    obtain ⟨z, hz', rfl⟩ := List.mem_map.1 hz
    obtain ⟨m, hm, rfl⟩ := mem_shiftLit hn
    have := lt_width (r := r) (.inr ⟨z, hz', hm⟩)
    omega
  obtain ⟨_, (⟨hno, rfl, rfl⟩ | ⟨h1, g1, hr1, e1⟩)⟩ := unify_any hg (sldLF_restores f _ _ _ fun ds m => hk _ _) e
  · refine ⟨[], .nil _, empty fun _ τ D hτ hD => ?_⟩
    obtain ⟨x, ds, rfl⟩ := hD.1
    obtain ⟨σ, h2, h3, _⟩ := key τ x ds hτ hD
    exact hno _ h2 h3
  · have hb1 : Below h1 (nx + width r) := (hb.mono (by omega)).unify hhead (fun n hn => by have := hq n hn; omega) hr1
    obtain ⟨L, hL, hY⟩ := ih _ _ _ h1 s h1 s' sig hbody hb1 g1 (by
      intro z hz t ht
      obtain ⟨z, hz', rfl⟩ := List.mem_map.1 hz
      cases z with
      | sub q' =>
        simp only [shiftLit, BLit.sub.injEq] at ht
        obtain ⟨c, as, rfl⟩ := hr.body _ hz' q' rfl
        exact ⟨c, as.map (shift nx), by rw [← ht]; simp [shift, sub_app]⟩
      | val c => simp [shiftLit] at ht
      | eq x y => simp [shiftLit] at ht
      | cmp o x y => simp [shiftLit] at ht) (fun ds m => hk _ _) e1
    refine ⟨L.map fun p => ((Deriv.node i (shift nx r.head) p.1.1, p.1.2), p.2),
      Runs.map (φ := fun p : List (Deriv K) × Nat => (Deriv.node i (shift nx r.head) p.1, p.2)) hL, ?_, ?_, ?_, ?_, ?_, ?_, ?_⟩
    · intro p hp; obtain ⟨p, hp', rfl⟩ := List.mem_map.1 hp; exact hY.good p hp'
    · intro p hp; obtain ⟨p, hp', rfl⟩ := List.mem_map.1 hp; have := hY.mark p hp'; simp only; omega
    · intro p hp; obtain ⟨p, hp', rfl⟩ := List.mem_map.1 hp; exact hY.below p hp'
    · intro p hp τ τ' ha
      obtain ⟨p, hp', rfl⟩ := List.mem_map.1 hp
      have := hY.mark p hp'
      simp only [subD]
      rw [hY.local' p hp' τ τ' ha, sub_congr fun n hn => ha n (by have := hhead n hn; simp only; omega)]
    · intro p hp τ hτ
      obtain ⟨p, hp', rfl⟩ := List.mem_map.1 hp
      obtain ⟨h2, h3, h4⟩ := hY.sound p hp' τ hτ
      obtain ⟨h5, h6⟩ := (hr1 τ).1 h2
      refine ⟨h5, ⟨_, _, rfl⟩, ⟨rfl, ?_⟩, ?_⟩
      · simpa [subD, item] using h6
      · simp only [subD, Inst]
        refine ⟨⟨r, fun n => τ (nx + n), hi, sub_shift, ?_⟩, h4⟩
        rw [List.forall₂_map_left_iff] at h3
        exact h3.imp fun _ _ h => fits_shift.1 h
    · have := hY.nodup
      rw [List.map_map]
      rw [show ((fun p : (Deriv K × Nat) × Heap => shape p.1.1) ∘ fun p : (List (Deriv K) × Nat) × Heap => ((Deriv.node i (shift nx r.head) p.1.1, p.1.2), p.2)) =
        (fun ds => Deriv.node i (.app []) ds) ∘ fun p => shapeL p.1.1 from by funext p; simp [shape], ← List.map_map]
      exact this.map fun a b h => by simpa using h
    · intro hf τ D hτ hD
      obtain ⟨x, ds, rfl⟩ := hD.1
      obtain ⟨σ, h2, h3, hx, hkids, hI⟩ := key τ x ds hτ hD
      obtain ⟨p, hp, τ', h4, h5, h6⟩ := hY.complete hf (ext nx τ σ) ds ((hr1 _).2 ⟨h2, h3⟩) ⟨by
        rw [List.forall₂_map_left_iff]
        refine hkids.imp fun z d hz => fits_shift.2 ?_
        rw [ext_shift]; exact hz, hI⟩
      refine ⟨_, List.mem_map.2 ⟨p, hp, rfl⟩, τ', fun n hn => by rw [h4 n (by omega), ext_lt hn], h5, ?_⟩
      simp only [subD, h6]
      rw [hx, sub_congr fun n hn => h4 n (hhead n hn), sub_shift, ext_shift]

theorem main {rules : List (SRule K)} (hf : ∀ r ∈ rules, Formed r) : ∀ f,
    (∀ nx z (k : Deriv K → Nat → Body S) h s h' s' sig, (∀ n ∈ litVars z, n < nx) → Below h nx → Good h → QOk h z →
      (∀ d m, Restores (k d m)) → sldF rules f nx z k h s = some (h', s', sig) →
      ∃ L, Runs (fun p : Deriv K × Nat => k p.1 p.2) L s s' sig ∧ Yields subD shape h nx (tgtZ rules z) L (sig = .done)) ∧
    (∀ nx zs (k : List (Deriv K) → Nat → Body S) h s h' s' sig, (∀ z ∈ zs, ∀ n ∈ litVars z, n < nx) → Below h nx → Good h → (∀ z ∈ zs, FnOk z) →
      (∀ d m, Restores (k d m)) → sldLF rules f nx zs k h s = some (h', s', sig) →
      ∃ L, Runs (fun p : List (Deriv K) × Nat => k p.1 p.2) L s s' sig ∧ Yields subDL shapeL h nx (tgtL rules zs) L (sig = .done)) := by
  intro f
  induction f with
  | zero => exact ⟨fun _ _ _ _ _ _ _ _ _ _ _ _ _ e => by simp [sldF] at e, fun _ _ _ _ _ _ _ _ _ _ _ _ _ e => by simp [sldLF] at e⟩
  | succ f ih =>
    constructor
    · intro nx z k h s h' s' sig hz hb hg hq hk e
      -- a consumer that is called once
      have once : ∀ d h1, k d nx h1 s = some (h1, s', sig) → Runs (fun p : Deriv K × Nat => k p.1 p.2) [((d, nx), h1)] s s' sig := by
        intro d h1 e
        by_cases hs : sig = .done
        · subst hs; exact .cons e (.nil _)
        · exact .stop hs e
      cases z with
      | val c =>
        simp only [sldF] at e
        have := hk _ _ _ _ _ _ _ e
        subst this
        refine ⟨_, once _ _ e, single hg hb (fun _ _ _ => rfl) (fun τ hτ => ⟨hτ, rfl, trivial⟩) fun τ D hτ hD => ⟨hτ, ?_⟩⟩
        rw [hD.1]; rfl
      | eq x y =>
        simp only [sldF] at e
        simp only [litVars, Finset.mem_union] at hz
        obtain ⟨_, (⟨hno, rfl, rfl⟩ | ⟨h1, g1, hr1, e1⟩)⟩ := unify_any hg (hk _ _) e
        · exact ⟨[], .nil _, empty fun _ τ D hτ hD => hno τ hτ hD.1.1⟩
        · refine ⟨_, once _ _ e1, single g1 (hb.unify (fun n hn => hz n (.inl hn)) (fun n hn => hz n (.inr hn)) hr1) ?_ ?_ ?_⟩
          · intro τ τ' ha
            simp only [subD]
            rw [sub_congr fun n hn => ha n (hz n (.inl hn)), sub_congr fun n hn => ha n (hz n (.inr hn))]
          · intro τ hτ
            obtain ⟨h2, h3⟩ := (hr1 τ).1 hτ
            exact ⟨h2, ⟨h3, rfl⟩, trivial⟩
          · rintro τ D hτ ⟨⟨h2, rfl⟩, _⟩
            exact ⟨(hr1 τ).2 ⟨hτ, h2⟩, rfl⟩
      | cmp o x y =>
        simp only [sldF] at e
        simp only [litVars, Finset.mem_union] at hz
        split at e
        · rename_i x' y' egx egy ex ey
          have hgx := (Solver.ground_val hg egx).1 rfl
          have hgy := (Solver.ground_val hg egy).1 rfl
          rw [deref_eq_sub ex, deref_eq_sub ey] at e
          have hx : ∀ τ, Respects h τ → x.sub τ = x.sub (res h) := fun τ hτ => Solver.sub_eq_of_ground hg hgx hτ
          have hy : ∀ τ, Respects h τ → y.sub τ = y.sub (res h) := fun τ hτ => Solver.sub_eq_of_ground hg hgy hτ
          split at e
          · rename_i ho
            have := hk _ _ _ _ _ _ _ e
            subst this
            refine ⟨_, once _ _ e, single hg hb ?_ (fun τ hτ => ⟨hτ, ⟨by rw [hx τ hτ, hy τ hτ]; exact ho, rfl⟩, trivial⟩) ?_⟩
            · intro τ τ' ha
              simp only [subD]
              rw [sub_congr fun n hn => ha n (hz n (.inl hn)), sub_congr fun n hn => ha n (hz n (.inr hn))]
            · rintro τ D hτ ⟨⟨_, rfl⟩, _⟩
              exact ⟨hτ, rfl⟩
          · rename_i ho
            simp only [Option.some.injEq, Prod.mk.injEq] at e
            obtain ⟨rfl, rfl, rfl⟩ := e
            refine ⟨[], .nil _, empty fun _ τ D hτ hD => ho ?_⟩
            rw [← hx τ hτ, ← hy τ hτ]; exact hD.1.1
        · simp only [Option.some.injEq, Prod.mk.injEq] at e
          obtain ⟨rfl, rfl, rfl⟩ := e
          exact ⟨[], .fail _ _, empty fun h => by simp at h⟩
        · simp at e
      | sub q =>
        simp only [sldF] at e
        split at e
        · simp at e
        · simp only [Option.some.injEq, Prod.mk.injEq] at e
          obtain ⟨rfl, rfl, rfl⟩ := e
          exact ⟨[], .fail _ _, empty fun h => by simp at h⟩
        · rename_i q' hnc eq'
          have eq' := deref_eq_sub eq'
          subst eq'
          have hres : ∀ p : SRule K × Nat, Restores (unifyF f (shift nx p.1.head) q
              (sldLF rules f (nx + width p.1) (p.1.body.map (shiftLit nx)) fun ds nx' => k (.node p.2 (shift nx p.1.head) ds) nx')) := by
            intro p h s h' s' sig e
            exact C03_no_trace f _ _ (sldLF_restores f _ _ _ fun ds m => hk _ _) _ _ _ _ _ e
          obtain ⟨l1, hrun, hpre, hfull⟩ := forEach_runs hres e
          have hl1 : ∀ p ∈ l1, rules[p.2]? = some p.1 := fun p hp => offered_mem (hpre.subset hp)
          obtain ⟨Ms, hMs, hrun⟩ := hrun.bind (k := fun p : Deriv K × Nat => k p.1 p.2)
            (P := fun p M full => Yields subD shape h nx (tgtR rules q p.1.2) M full) (fun p L (hy : Yields subD shape h nx (tgtR rules q p.1.2) L True) => hy.partial False.elim) (by
              intro p hp s s' sig e
              obtain ⟨⟨r, i⟩, hp', rfl⟩ := List.mem_map.1 hp
              have hri : rules[i]? = some r := hl1 _ hp'
              exact rule_yields hz hg hb hri hk ih.2 (hf r (List.mem_of_getElem? hri)) e)
          rw [List.forall₂_map_left_iff] at hMs
          refine ⟨_, hrun, ?_, ?_, ?_, ?_, ?_, ?_, ?_⟩
          · intro p hp
            obtain ⟨M, hM, hp⟩ := List.mem_flatten.1 hp
            obtain ⟨a, _, hY⟩ := (forall₂_mem hMs).1 M hM
            exact hY.good p hp
          · intro p hp
            obtain ⟨M, hM, hp⟩ := List.mem_flatten.1 hp
            obtain ⟨a, _, hY⟩ := (forall₂_mem hMs).1 M hM
            exact hY.mark p hp
          · intro p hp
            obtain ⟨M, hM, hp⟩ := List.mem_flatten.1 hp
            obtain ⟨a, _, hY⟩ := (forall₂_mem hMs).1 M hM
            exact hY.below p hp
          · intro p hp
            obtain ⟨M, hM, hp⟩ := List.mem_flatten.1 hp
            obtain ⟨a, _, hY⟩ := (forall₂_mem hMs).1 M hM
            exact hY.local' p hp
          · intro p hp τ hτ
            obtain ⟨M, hM, hp⟩ := List.mem_flatten.1 hp
            obtain ⟨a, _, hY⟩ := (forall₂_mem hMs).1 M hM
            exact ⟨(hY.sound p hp τ hτ).1, (hY.sound p hp τ hτ).2.2⟩
          · refine flatten_nodup hMs (fun a _ M hY => hY.nodup) ?_
            have hidx : l1.Pairwise fun a a' => a.2 ≠ a'.2 :=
              (Deriv.zipIdx_pairwise rules).sublist (hpre.sublist.trans offered_sub)
            refine hidx.imp ?_
            intro a a' hne M M' hY hY' b hb b' hb' hsh
            obtain ⟨⟨x, ds, h1⟩, _⟩ := (hY.sound b hb _ (hY.good b hb).respects_res).2
            obtain ⟨⟨x', ds', h1'⟩, _⟩ := (hY'.sound b' hb' _ (hY'.good b' hb').respects_res).2
            rw [← shape_sub (res b.2), ← shape_sub (res b'.2) b'.1.1, h1, h1'] at hsh
            simp only [shape, Deriv.node.injEq] at hsh
            exact hne hsh.1
          · intro hs τ D hτ hD
            obtain ⟨i, x, ds, rfl⟩ : ∃ i x ds, D = .node i x ds := by
              cases D with
              | const c => simp [tgtZ, Fits, base] at hD
              | bi x y => simp [tgtZ, Fits, base] at hD
              | node i x ds => exact ⟨i, x, ds, rfl⟩
            have hinst := hD.2
            simp only [Inst] at hinst
            obtain ⟨⟨r, σ, hi, hx, _⟩, _⟩ := hinst
            have hmem : (r, i) ∈ offered rules (q.sub (res h)) := by
              have hzip : (r, i) ∈ rules.zipIdx := List.mem_zipIdx_iff_getElem?.2 hi
              have hxq : r.head.sub σ = q.sub τ := by rw [← hx]; exact hD.1.2
              rcases hq with hq | ⟨n, hq, hn⟩
              · obtain ⟨c, as, rfl⟩ := hq q rfl
                obtain ⟨c', as', hh⟩ := (hf r (List.mem_of_getElem? hi)).head
                rw [hh] at hxq
                simp only [sub_app, List.map_cons, sub_con, Tm.app.injEq, List.cons.injEq, Tm.con.injEq] at hxq
                simp only [sub_app, List.map_cons, sub_con, offered, List.mem_filter]
                exact ⟨hzip, by simp [hh, hfn, hxq.1]⟩
              · simp only [BLit.sub.injEq] at hq
                subst hq
                simpa [res_unbound hn, offered] using hzip
            rw [← hfull hs] at hmem
            obtain ⟨M, hM, hY⟩ := (forall₂_mem hMs).2 _ hmem
            obtain ⟨p, hp, τ', h1, h2, h3⟩ := hY.complete hs τ _ hτ ⟨⟨x, ds, rfl⟩, hD⟩
            exact ⟨p, List.mem_flatten.2 ⟨M, hM, hp⟩, τ', h1, h2, h3⟩
    · intro nx zs k h s h' s' sig hz hb hg hq hk e
      cases zs with
      | nil =>
        simp only [sldLF] at e
        have := hk _ _ _ _ _ _ _ e
        subst this
        refine ⟨[(([], nx), h')], ?_, single hg hb (fun _ _ _ => rfl) (fun τ hτ => ⟨hτ, .nil, trivial⟩) ?_⟩
        · by_cases hs : sig = .done
          · subst hs; exact .cons e (.nil _)
          · exact .stop hs e
        · rintro τ D hτ ⟨hD, _⟩
          cases hD
          exact ⟨hτ, rfl⟩
      | cons z zs =>
        simp only [sldLF] at e
        obtain ⟨L, hL, hY⟩ := ih.1 nx z _ h s h' s' sig (hz z (by simp)) hb hg (.inl (hq z (by simp)))
          (fun d m => sldLF_restores f _ _ _ fun ds m => hk _ _) e
        obtain ⟨Ms, hMs, hrun⟩ := hL.bind (k := fun p : List (Deriv K) × Nat => k p.1 p.2)
          (P := fun p M full => ∃ M0, M = M0.map (fun q => ((p.1.1 :: q.1.1, q.1.2), q.2)) ∧ Yields subDL shapeL p.2 p.1.2 (tgtL rules zs) M0 full)
          (by rintro p L ⟨M0, h1, h2⟩; exact ⟨M0, h1, h2.partial False.elim⟩) (by
            intro p hp s s' sig e
            have hm := hY.mark p hp
            obtain ⟨M0, h1, h2⟩ := ih.2 p.1.2 zs _ p.2 s p.2 s' sig (fun z hz' n hn => by have := hz z (by simp [hz']) n hn; omega)
              (hY.below p hp) (hY.good p hp) (fun z hz => hq z (by simp [hz])) (fun d m => hk _ _) e
            exact ⟨_, Runs.map (φ := fun q : List (Deriv K) × Nat => (p.1.1 :: q.1, q.2)) h1, M0, rfl, h2⟩)
        have hin : ∀ q ∈ Ms.flatten, ∃ p ∈ L, ∃ M0 q0, q0 ∈ M0 ∧ q = ((p.1.1 :: q0.1.1, q0.1.2), q0.2) ∧
            Yields subDL shapeL p.2 p.1.2 (tgtL rules zs) M0 (sig = .done) := by
          intro q hq
          obtain ⟨M, hM, hq⟩ := List.mem_flatten.1 hq
          obtain ⟨p, hp, M0, rfl, hY0⟩ := (forall₂_mem hMs).1 M hM
          obtain ⟨q0, hq0, rfl⟩ := List.mem_map.1 hq
          exact ⟨p, hp, M0, q0, hq0, rfl, hY0⟩
        refine ⟨_, hrun, ?_, ?_, ?_, ?_, ?_, ?_, ?_⟩
        · intro q hq; obtain ⟨p, hp, M0, q0, hq0, rfl, hY0⟩ := hin q hq; exact hY0.good q0 hq0
        · intro q hq
          obtain ⟨p, hp, M0, q0, hq0, rfl, hY0⟩ := hin q hq
          exact le_trans (hY.mark p hp) (hY0.mark q0 hq0)
        · intro q hq; obtain ⟨p, hp, M0, q0, hq0, rfl, hY0⟩ := hin q hq; exact hY0.below q0 hq0
        · intro q hq τ τ' ha
          obtain ⟨p, hp, M0, q0, hq0, rfl, hY0⟩ := hin q hq
          have := hY0.mark q0 hq0
          simp only [subDL]
          rw [hY0.local' q0 hq0 τ τ' ha, hY.local' p hp τ τ' fun n hn => ha n (by simp only; omega)]
        · intro q hq τ hτ
          obtain ⟨p, hp, M0, q0, hq0, rfl, hY0⟩ := hin q hq
          obtain ⟨h1, h2⟩ := hY0.sound q0 hq0 τ hτ
          obtain ⟨h3, h4⟩ := hY.sound p hp τ h1
          exact ⟨h3, .cons h4.1 h2.1, h4.2, h2.2⟩
        · refine flatten_nodup hMs ?_ ?_
          · rintro p hp M ⟨M0, rfl, hY0⟩
            rw [List.map_map]
            rw [show ((fun q : (List (Deriv K) × Nat) × Heap => shapeL q.1.1) ∘ fun q : (List (Deriv K) × Nat) × Heap => ((p.1.1 :: q.1.1, q.1.2), q.2)) =
              (fun ds => shape p.1.1 :: ds) ∘ fun q => shapeL q.1.1 from by funext q; simp [shapeL], ← List.map_map]
            exact hY0.nodup.map fun a b h => by simpa using h
          · have := hY.nodup
            unfold List.Nodup at this
            rw [List.pairwise_map] at this
            refine this.imp ?_
            rintro p p' hne M M' ⟨M0, rfl, _⟩ ⟨M0', rfl, _⟩ b hb b' hb' hsh
            obtain ⟨q, _, rfl⟩ := List.mem_map.1 hb
            obtain ⟨q', _, rfl⟩ := List.mem_map.1 hb'
            simp only [shapeL, List.cons.injEq] at hsh
            exact hne hsh.1
        · rintro hs τ Ds hτ ⟨hfit, hinst⟩
          cases hfit with
          | @cons _ D _ Ds h1 h2 =>
            obtain ⟨hI, hIL⟩ := hinst
            obtain ⟨p, hp, τ', h3, h4, h5⟩ := hY.complete hs τ D hτ ⟨h1, hI⟩
            obtain ⟨M, hM, M0, rfl, hY0⟩ := (forall₂_mem hMs).2 p hp
            have h2' : List.Forall₂ (Fits τ') zs Ds := by
              have : ∀ (zs : List (BLit K)) (Ds : List (Deriv K)), (∀ z ∈ zs, ∀ n ∈ litVars z, n < nx) → List.Forall₂ (Fits τ) zs Ds →
                  List.Forall₂ (Fits τ') zs Ds := by
                intro zs Ds hz h
                induction h with
                | nil => exact .nil
                | cons h1 _ ih =>
                  exact .cons (fits_congr (fun n hn => (h3 n (hz _ (by simp) n hn)).symm) h1) (ih fun z hz' => hz z (by simp [hz']))
              exact this zs Ds (fun z hz' => hz z (by simp [hz'])) h2
            obtain ⟨q, hq, τ'', h6, h7, h8⟩ := hY0.complete hs τ' Ds h4 ⟨h2', hIL⟩
            have hm := hY.mark p hp
            refine ⟨_, List.mem_flatten.2 ⟨_, hM, List.mem_map.2 ⟨q, hq, rfl⟩⟩, τ'', fun n hn => by rw [h6 n (by omega), h3 n hn], h7, ?_⟩
            simp only [subDL, h8]
            rw [hY.local' p hp τ'' τ' h6, h5]

/-! ### The answers as they are copied -/

mutual
theorem derefD_eq {h : Heap} {f : Nat} : ∀ {d d' : Deriv K}, derefD h f d = some d' → d' = subD (res h) d
  | .const k, d', e => by simp only [derefD, Option.some.injEq] at e; rw [← e]; rfl
  | .bi x y, d', e => by
    simp only [derefD] at e
    split at e
    · rename_i ex ey
      simp only [Option.some.injEq] at e
      rw [← e, deref_eq_sub ex, deref_eq_sub ey]; rfl
    · simp at e
  | .node i x ds, d', e => by
    simp only [derefD] at e
    split at e
    · rename_i ex ey
      simp only [Option.some.injEq] at e
      rw [← e, deref_eq_sub ex, derefDL_eq ey]; rfl
    · simp at e
theorem derefDL_eq {h : Heap} {f : Nat} : ∀ {ds ds' : List (Deriv K)}, derefDL h f ds = some ds' → ds' = subDL (res h) ds
  | [], ds', e => by simp only [derefDL, Option.some.injEq] at e; rw [← e]; rfl
  | d :: ds, ds', e => by
    simp only [derefDL] at e
    split at e
    · rename_i ex ey
      simp only [Option.some.injEq] at e
      rw [← e, derefD_eq ex, derefDL_eq ey]; rfl
    · simp at e
end

mutual
theorem subD_subD (σ τ : Nat → Tm) : ∀ d : Deriv K, subD τ (subD σ d) = subD (fun n => (σ n).sub τ) d
  | .const k => by simp [subD]
  | .bi x y => by simp [subD, sub_sub]
  | .node i x ds => by simp [subD, sub_sub, subDL_subDL σ τ ds]
theorem subDL_subDL (σ τ : Nat → Tm) : ∀ ds : List (Deriv K), subDL τ (subDL σ ds) = subDL (fun n => (σ n).sub τ) ds
  | [] => by simp [subDL]
  | d :: ds => by simp [subDL, subD_subD σ τ d, subDL_subDL σ τ ds]
end

theorem respects_comp {h : Heap} (hg : Good h) (τ : Nat → Tm) : Respects h (fun n => (res h n).sub τ) := by
  intro n t hn
  simp only
  rw [hg.respects_res n t hn, sub_sub]

theorem res_comp {h : Heap} (hg : Good h) {τ : Nat → Tm} (hτ : Respects h τ) : (fun n => (res h n).sub τ) = τ := by
  funext n
  have := hg.sub_res hτ (.var n)
  simpa using this

theorem collect_runs {lim : Option Nat} {f : Nat} {L : List ((Deriv K × Nat) × Heap)} {s s' : List (Deriv K)} {sig : Sig}
    (h : Runs (fun p : Deriv K × Nat => collect lim f p.1) L s s' sig) :
    s' = s ++ L.map (fun p => subD (res p.2) p.1.1) ∧ (sig = .brk → lim = some s'.length) ∧ (s.length < lim.getD (s.length + 1) → s'.length ≤ lim.getD s'.length) := by
  induction h with
  | nil s => exact ⟨by simp, by simp, fun h => by cases lim <;> simp_all; omega⟩
  | fail s n => exact ⟨by simp, by simp, fun h => by cases lim <;> simp_all; omega⟩
  | @stop a h s s1 sig hn e =>
    simp only [collect] at e
    split at e
    · simp at e
    · rename_i d' ed
      simp only [Option.some.injEq, Prod.mk.injEq, true_and] at e
      obtain ⟨rfl, rfl⟩ := e
      split at hn
      · rename_i hl
        refine ⟨by simp [derefD_eq ed], fun _ => by simpa using hl, fun _ => by simp [hl]⟩
      · simp at hn
  | @cons a h s s1 s2 sig L e hR ih =>
    simp only [collect] at e
    split at e
    · simp at e
    · rename_i d' ed
      simp only [Option.some.injEq, Prod.mk.injEq, true_and] at e
      obtain ⟨rfl, e⟩ := e
      split at e
      · simp at e
      · rename_i hl
        refine ⟨by rw [ih.1]; simp [derefD_eq ed], ih.2.1, fun h => ih.2.2 ?_⟩
        cases lim with
        | none => simp
        | some l =>
          simp only [Option.getD_some, List.length_append, List.length_cons, List.length_nil] at *
          simp only [Option.some.injEq] at hl
          omega

/-- a query `sld` can be asked -/
def Asks (x : Tm) : Prop := (∃ c as, x = .app (.con c :: as)) ∨ ∃ n, x = .var n

/-- `d` is a derivation, not necessarily ground, of an instance of `x` -/
def IsInst (rules : List (SRule K)) (x : Tm) (d : Deriv K) : Prop := d.base = false ∧ (∃ θ, item d = x.sub θ) ∧ Inst rules d

theorem sldQ_yields {rules : List (SRule K)} (hf : ∀ r ∈ rules, Formed r) {x : Tm} (hx : Asks x) {lim : Option Nat} {f : Nat} {out : List (Deriv K)} {sig : Sig}
    (e : sldQ rules lim f x = some (out, sig)) :
    ∃ L, out = L.map (fun p : (Deriv K × Nat) × Heap => subD (res p.2) p.1.1) ∧ Yields subD shape noHeap (bound x) (tgtZ rules (.sub x)) L (sig = .done) ∧
      (sig = .brk → lim = some out.length) ∧ (0 < lim.getD 1 → out.length ≤ lim.getD out.length) := by
  unfold sldQ at e
  obtain ⟨⟨h', s', sig'⟩, e1, e2⟩ := Option.map_eq_some_iff.1 e
  simp only [Prod.mk.injEq] at e2
  obtain ⟨rfl, rfl⟩ := e2
  obtain ⟨L, hL, hY⟩ := (main hf f).1 (bound x) (.sub x) _ noHeap [] h' s' sig' (fun n hn => lt_bound hn) (fun _ _ _ _ => Solver.respects_noHeap _) good_noHeap
    (by
      rcases hx with ⟨c, as, rfl⟩ | ⟨n, rfl⟩
      · left; intro t ht; simp only [BLit.sub.injEq] at ht; exact ⟨c, as, ht.symm⟩
      · exact .inr ⟨n, rfl, rfl⟩)
    (by
      intro d m h s h' s' sig e
      simp only [collect] at e
      split at e
      · simp at e
      · simp only [Option.some.injEq, Prod.mk.injEq] at e; exact e.1.symm) e1
  obtain ⟨h1, h2, h3⟩ := collect_runs hL
  exact ⟨L, by simpa using h1, hY, h2, by simpa using h3⟩

/-- What `sld` has yielded, whether it is stopped after `lim` derivations, ends or raises: at most `lim` trees, no two
with the same rules at the same places, and every instance of one is a derivation of an instance of the query. -/
theorem C70_prefix {rules : List (SRule K)} (hf : ∀ r ∈ rules, Formed r) {x : Tm} (hx : Asks x) {lim : Option Nat} {f : Nat} {out : List (Deriv K)} {sig : Sig}
    (e : sldQ rules lim f x = some (out, sig)) :
    (out.map shape).Nodup ∧ (∀ d ∈ out, ∀ τ, IsInst rules x (subD τ d)) ∧ (sig = .brk → lim = some out.length) ∧
      (0 < lim.getD 1 → out.length ≤ lim.getD out.length) := by
  obtain ⟨L, rfl, hY, h1, h2⟩ := sldQ_yields hf hx e
  refine ⟨?_, ?_, h1, h2⟩
  · have := hY.nodup
    rw [List.map_map]
    rwa [show shape ∘ (fun p : (Deriv K × Nat) × Heap => subD (res p.2) p.1.1) = fun p => shape p.1.1 from funext fun p => shape_sub _ _]
  · intro d hd τ
    obtain ⟨p, hp, rfl⟩ := List.mem_map.1 hd
    have := (hY.sound p hp _ (respects_comp (hY.good p hp) τ)).2
    rw [subD_subD]
    exact ⟨this.1.1, ⟨_, this.1.2⟩, this.2⟩

/-- When `sld` ends, every derivation of an instance of the query is an instance of exactly one of the trees it has
yielded. -/
theorem C70_instances {rules : List (SRule K)} (hf : ∀ r ∈ rules, Formed r) {x : Tm} (hx : Asks x) {lim : Option Nat} {f : Nat} {out : List (Deriv K)}
    (e : sldQ rules lim f x = some (out, .done)) {d : Deriv K} : IsInst rules x d ↔ ∃! t, t ∈ out ∧ ∃ τ, subD τ t = d := by
  obtain ⟨hn, hs, -⟩ := C70_prefix hf hx e
  constructor
  · rintro ⟨hb, ⟨θ, hθ⟩, hi⟩
    obtain ⟨L, rfl, hY, -⟩ := sldQ_yields hf hx e
    obtain ⟨p, hp, τ', h1, h2, h3⟩ := hY.complete rfl θ d (Solver.respects_noHeap _) ⟨⟨hb, hθ⟩, hi⟩
    refine ⟨subD (res p.2) p.1.1, ⟨List.mem_map.2 ⟨p, hp, rfl⟩, τ', ?_⟩, ?_⟩
    · rw [subD_subD, res_comp (hY.good p hp) h2]; exact h3
    · rintro t ⟨ht, τ, rfl⟩
      refine List.inj_on_of_nodup_map hn ht (List.mem_map.2 ⟨p, hp, rfl⟩) ?_
      rw [shape_sub, ← shape_sub τ' p.1.1, h3, shape_sub]
  · rintro ⟨t, ⟨ht, τ, rfl⟩, _⟩
    exact hs t ht τ

/-! ### Programs whose derivations are ground -/

section Ground
variable {K : Type} [CommSemiring K]

theorem sub_grd {t : Tm} (h : Ground t) (τ : Nat → Tm) : t.sub τ = t := by
  rw [sub_congr (τ := .var) fun n hn => by rw [show vars t = ∅ from h] at hn; simp at hn, sub_id]

mutual
theorem valid_inst {rules : List (SRule K)} : ∀ {d : Deriv K}, Valid rules d → Inst rules d
  | .const _, _ => trivial
  | .bi _ _, _ => trivial
  | .node i x ds, ⟨⟨r, θ, h1, _, h2, h3⟩, h4⟩ => ⟨⟨r, θ, h1, h2, h3⟩, validL_instL h4⟩
theorem validL_instL {rules : List (SRule K)} : ∀ {ds : List (Deriv K)}, ValidL rules ds → InstL rules ds
  | [], _ => trivial
  | _ :: _, ⟨h1, h2⟩ => ⟨valid_inst h1, validL_instL h2⟩
end

theorem forall₂_get {α β : Type} {R : α → β → Prop} {l : List α} {l' : List β} (h : List.Forall₂ R l l') : ∀ a ∈ l, ∃ b ∈ l', R a b :=
  (forall₂_mem h).2

mutual
theorem inst_valid {rules : List (SRule K)} (hr : ∀ r ∈ rules, Safe r) : ∀ {d : Deriv K}, Inst rules d → Valid rules d ∧ (d.base = false → Ground (item d))
  | .const _, _ => ⟨trivial, by simp [base]⟩
  | .bi _ _, _ => ⟨trivial, by simp [base]⟩
  | .node i x ds, ⟨⟨r, σ, h1, h2, h3⟩, h4⟩ => by
    have hsafe := hr r (List.mem_of_getElem? h1)
    obtain ⟨h5, h6⟩ := instL_validL hr h4
    have hb : ∀ n, InRule r n → Ground (σ n) := fun n hn => Deriv.bnd_grd (fun t ht => by
        obtain ⟨d, hd, h7⟩ := forall₂_get h3 _ ht
        rw [← h7.2]; exact h6 d hd h7.1) (fun x y hxy => by
        obtain ⟨d, hd, h7⟩ := forall₂_get h3 _ hxy
        exact h7.1) (hsafe.bnd n hn)
    refine ⟨⟨⟨r, restr r σ, h1, ⟨fun n hn => by rw [restr_in hn]; exact hb n hn, fun n hn => by simp [restr, hn]⟩, by rw [restr_head]; exact h2, ?_⟩, h5⟩, fun _ => ?_⟩
    · have : ∀ (b : List (BLit K)) (ds : List (Deriv K)), (∀ z ∈ b, z ∈ r.body) → List.Forall₂ (Fits σ) b ds → List.Forall₂ (Fits (restr r σ)) b ds := by
        intro b ds hz h
        induction h with
        | nil => exact .nil
        | cons h1 _ ih =>
          exact .cons (fits_congr (fun n hn => (restr_in (.inr ⟨_, hz _ (by simp), hn⟩)).symm) h1) (ih fun z hz' => hz z (by simp [hz']))
      exact this r.body ds (fun _ h => h) h3
    · simp only [item, h2]
      exact Solver.ground_sub fun n hn => hb n (.inl hn)
theorem instL_validL {rules : List (SRule K)} (hr : ∀ r ∈ rules, Safe r) : ∀ {ds : List (Deriv K)}, InstL rules ds →
    ValidL rules ds ∧ ∀ d ∈ ds, d.base = false → Ground (item d)
  | [], _ => ⟨trivial, by simp⟩
  | d :: ds, ⟨h1, h2⟩ => by
    obtain ⟨h3, h4⟩ := inst_valid hr h1
    obtain ⟨h5, h6⟩ := instL_validL hr h2
    refine ⟨⟨h3, h5⟩, fun d' hd' => ?_⟩
    rcases List.mem_cons.1 hd' with rfl | hd'
    · exact h4
    · exact h6 d' hd'
end

mutual
theorem subD_valid {rules : List (SRule K)} (τ : Nat → Tm) : ∀ {d : Deriv K}, Valid rules d → (∀ x y, d ≠ .bi x y) → subD τ d = d
  | .const _, _, _ => rfl
  | .bi x y, _, h => absurd rfl (h x y)
  | .node i x ds, ⟨⟨r, θ, _, hθ, h2, h3⟩, h4⟩, _ => by
    have hx : Ground x := by rw [h2]; exact Solver.ground_sub fun n hn => hθ.1 n (.inl hn)
    simp only [subD, sub_grd hx]
    rw [subDL_valid τ h4]
    intro d hd x y hxy
    obtain ⟨z, hz, hf⟩ := (forall₂_mem h3).1 d hd
    subst hxy
    cases z with
    | val k => simp [Fits] at hf
    | sub t => simp [Fits, base] at hf
    | eq a b =>
      obtain ⟨_, hf⟩ := hf
      simp only [Deriv.bi.injEq] at hf
      rw [hf.1, hf.2]
      exact ⟨Solver.ground_sub fun n hn => hθ.1 n (.inr ⟨_, hz, by simp [litVars, hn]⟩), Solver.ground_sub fun n hn => hθ.1 n (.inr ⟨_, hz, by simp [litVars, hn]⟩)⟩
    | cmp o a b =>
      obtain ⟨_, hf⟩ := hf
      simp only [Deriv.bi.injEq] at hf
      rw [hf.1, hf.2]
      exact ⟨Solver.ground_sub fun n hn => hθ.1 n (.inr ⟨_, hz, by simp [litVars, hn]⟩), Solver.ground_sub fun n hn => hθ.1 n (.inr ⟨_, hz, by simp [litVars, hn]⟩)⟩
theorem subDL_valid {rules : List (SRule K)} (τ : Nat → Tm) : ∀ {ds : List (Deriv K)}, ValidL rules ds →
    (∀ d ∈ ds, ∀ x y, d = .bi x y → Ground x ∧ Ground y) → subDL τ ds = ds
  | [], _, _ => rfl
  | .const k :: ds, ⟨_, h2⟩, h => by
    simp only [subDL, subD]
    rw [subDL_valid τ h2 fun d hd => h d (by simp [hd])]
  | .bi x y :: ds, ⟨_, h2⟩, h => by
    obtain ⟨hx, hy⟩ := h (.bi x y) (by simp) x y rfl
    simp only [subDL, subD, sub_grd hx, sub_grd hy]
    rw [subDL_valid τ h2 fun d hd => h d (by simp [hd])]
  | .node i x ks :: ds, ⟨h1, h2⟩, h => by
    simp only [subDL]
    rw [subDL_valid τ h2 fun d hd => h d (by simp [hd]), subD_valid τ h1 (by simp)]
end

/-- When `sld` ends on a program whose rules bind their variables, it has listed the derivations of the instances of
the query, each once. -/
theorem C70_exact {rules : List (SRule K)} (hf : ∀ r ∈ rules, Formed r) (hr : ∀ r ∈ rules, Safe r) {x : Tm} (hx : Asks x) {lim : Option Nat} {f : Nat}
    {out : List (Deriv K)} (e : sldQ rules lim f x = some (out, .done)) :
    out.Nodup ∧ ∀ d, d ∈ out ↔ ∃ θ, IsDeriv rules (x.sub θ) d := by
  obtain ⟨hn, hs, -⟩ := C70_prefix hf hx e
  have hv : ∀ d, IsInst rules x d → Valid rules d ∧ ∀ τ, subD τ d = d := by
    rintro d ⟨hb, _, hi⟩
    have := (inst_valid hr hi).1
    exact ⟨this, fun τ => subD_valid τ this fun a b h => by subst h; simp [base] at hb⟩
  have hid : ∀ d : Deriv K, Inst rules d → d.base = false → subD .var d = d := fun d hi hb => by
    have := (inst_valid hr hi).1
    exact subD_valid _ this fun a b h => by subst h; simp [base] at hb
  refine ⟨.of_map _ hn, fun d => ⟨fun hd => ?_, ?_⟩⟩
  · obtain ⟨L, rfl, hY, -⟩ := sldQ_yields hf hx e
    obtain ⟨p, hp, rfl⟩ := List.mem_map.1 hd
    obtain ⟨⟨h1, h2⟩, h3⟩ := (hY.sound p hp _ (hY.good p hp).respects_res).2
    exact ⟨_, h1, h2, (inst_valid hr h3).1⟩
  · rintro ⟨θ, h1, h2, h3⟩
    obtain ⟨t, ⟨ht, τ, rfl⟩, _⟩ := (C70_instances hf hx e).1 ⟨h1, ⟨θ, h2⟩, valid_inst h3⟩
    obtain ⟨L, rfl, hY, -⟩ := sldQ_yields hf hx e
    obtain ⟨p, hp, rfl⟩ := List.mem_map.1 ht
    obtain ⟨⟨h1, h2⟩, h3⟩ := (hY.sound p hp _ (hY.good p hp).respects_res).2
    rw [(hv _ ⟨h1, ⟨_, h2⟩, h3⟩).2]
    exact ht

/-- … and what it has listed when it is stopped earlier are derivations, each once -/
theorem C70_safe_prefix {rules : List (SRule K)} (hf : ∀ r ∈ rules, Formed r) (hr : ∀ r ∈ rules, Safe r) {x : Tm} (hx : Asks x) {lim : Option Nat} {f : Nat}
    {out : List (Deriv K)} {sig : Sig} (e : sldQ rules lim f x = some (out, sig)) : out.Nodup ∧ ∀ d ∈ out, ∃ θ, IsDeriv rules (x.sub θ) d := by
  refine ⟨.of_map _ (C70_prefix hf hx e).1, fun d hd => ?_⟩
  obtain ⟨L, rfl, hY, -⟩ := sldQ_yields hf hx e
  obtain ⟨p, hp, rfl⟩ := List.mem_map.1 hd
  obtain ⟨⟨h1, h2⟩, h3⟩ := (hY.sound p hp _ (hY.good p hp).respects_res).2
  exact ⟨_, h1, h2, (inst_valid hr h3).1⟩

/-- The derivations found when `sld` ends give the values: from some round on the step operator assigns to every
instance of the query the sum, over the trees listed for it, of the product of their leaves. -/
theorem C70_value {rules : List (SRule K)} (hf : ∀ r ∈ rules, Formed r) (hr : ∀ r ∈ rules, Safe r) {x : Tm} (hx : Asks x) {lim : Option Nat} {f : Nat}
    {out : List (Deriv K)} (e : sldQ rules lim f x = some (out, .done)) :
    ∃ T, ∀ t ≥ T, ∀ θ, Naive.iter rules t (x.sub θ) = ((out.filter fun d => decide (item d = x.sub θ)).map fun d => (Deriv.leaves d).prod).sum := by
  classical
  obtain ⟨hn, hiff⟩ := C70_exact hf hr hx e
  refine ⟨(out.map Deriv.height).foldr max 0, fun t ht θ => ?_⟩
  have hle : ∀ d ∈ out, Deriv.height d ≤ t := by
    intro d hd
    refine le_trans ?_ ht
    clear ht hiff hn e
    induction out with
    | nil => simp at hd
    | cons a l ih =>
      simp only [List.map_cons, List.foldr_cons]
      rcases List.mem_cons.1 hd with rfl | hd
      · exact le_max_left _ _
      · exact le_trans (ih hd) (le_max_right _ _)
  rw [Deriv.C26_trees hr]
  have hset : {d : Deriv K | IsDeriv rules (x.sub θ) d ∧ Deriv.height d ≤ t} = ((out.filter fun d => decide (item d = x.sub θ)).toFinset : Set (Deriv K)) := by
    ext d
    simp only [Set.mem_setOf_eq, List.coe_toFinset, List.mem_filter, decide_eq_true_eq]
    constructor
    · rintro ⟨h1, _⟩
      exact ⟨(hiff d).2 ⟨θ, h1⟩, h1.2.1⟩
    · rintro ⟨h1, h2⟩
      obtain ⟨θ', h3⟩ := (hiff d).1 h1
      exact ⟨⟨h3.1, h2, h3.2.2⟩, hle d h1⟩
  rw [hset, finsum_mem_coe_finset, List.sum_toFinset _ (hn.filter _)]

end Ground

/-! ### Enumeration ends for programs without recursion -/

section Total
open Query (Ends GrdOn Moded boundBy unify_ends forEach_ends)

theorem Ends.succ {g g' : Nat → Body S} {h : Heap} (hg : ∀ f, g (f + 1) = g' f) (he : Ends g' h) : Ends g h := by
  obtain ⟨N, hN⟩ := he
  refine ⟨N + 1, fun s => ?_⟩
  obtain ⟨s', e⟩ := hN s
  refine ⟨s', fun f hf => ?_⟩
  obtain ⟨f, rfl⟩ : ∃ f', f = f' + 1 := ⟨f - 1, by omega⟩
  rw [hg]
  exact e f (by omega)

theorem Ends.later {g : Nat → Body S} {h : Heap} (he : Ends g h) : Ends (fun f => g (f + 1)) h := by
  obtain ⟨N, hN⟩ := he
  refine ⟨N, fun s => ?_⟩
  obtain ⟨s', e⟩ := hN s
  exact ⟨s', fun f hf => e (f + 1) (by omega)⟩

theorem vars_shift {nx : Nat} {t : Tm} : vars (shift nx t) = (vars t).image (nx + ·) := by
  ext n
  unfold shift
  rw [mem_vars_sub]
  simp only [vars_var, Finset.mem_singleton, Finset.mem_image]
  exact ⟨fun ⟨m, h1, h2⟩ => ⟨m, h1, h2.symm⟩, fun ⟨m, h1, h2⟩ => ⟨m, h1, h2.symm⟩⟩

theorem image_sub {nx : Nat} {A B : Finset Nat} : A.image (nx + ·) ⊆ B.image (nx + ·) ↔ A ⊆ B :=
  Finset.image_subset_image_iff (fun a b h => by simpa using h)

theorem boundBy_shift {nx : Nat} : ∀ {b : List (BLit K)} {B : Finset Nat},
    boundBy (B.image (nx + ·)) (b.map (shiftLit nx)) = (boundBy B b).image (nx + ·) := by
  intro b
  induction b with
  | nil => intro B; rfl
  | cons z b ih =>
    intro B
    cases z with
    | val c => exact ih
    | sub t =>
      simp only [List.map_cons, shiftLit, boundBy, vars_shift, ← Finset.image_union]
      exact ih
    | eq x y =>
      simp only [List.map_cons, shiftLit, boundBy, vars_shift, image_sub, ← Finset.image_union]
      by_cases hc : vars x ⊆ B ∨ vars y ⊆ B
      · rw [if_pos hc, if_pos hc]; exact ih
      · rw [if_neg hc, if_neg hc]; exact ih
    | cmp o x y => exact ih

theorem moded_shift {nx : Nat} : ∀ {b : List (BLit K)} {B : Finset Nat}, Moded B b → Moded (B.image (nx + ·)) (b.map (shiftLit nx)) := by
  intro b
  induction b with
  | nil => intro B _; trivial
  | cons z b ih =>
    intro B h
    cases z with
    | val c => exact ih h
    | sub t =>
      simp only [List.map_cons, shiftLit, Moded, vars_shift, ← Finset.image_union]
      exact ih h
    | eq x y =>
      simp only [List.map_cons, shiftLit, Moded, vars_shift, image_sub, ← Finset.image_union] at h ⊢
      by_cases hc : vars x ⊆ B ∨ vars y ⊆ B
      · rw [if_pos hc] at h ⊢; exact ih h
      · rw [if_neg hc] at h ⊢; exact ih h
    | cmp o x y =>
      simp only [List.map_cons, shiftLit, Moded, vars_shift, image_sub] at h ⊢
      exact ⟨h.1, h.2.1, ih h.2.2⟩

/-- the body of a copy of the rule ends -/
def RuleEnds (S : Type) (rules : List (SRule K)) (r : SRule K) : Prop :=
  ∀ nx h1 (k : Nat → List (Deriv K) → Nat → Body S), (∀ f ds m, Restores (k f ds m)) → Good h1 →
    (∀ ds m h2, Good h2 → (∀ τ, Respects h2 τ → Respects h1 τ) → GrdOn h2 (boundBy ∅ (r.body.map (shiftLit nx))) → Ends (fun f => k f ds m) h2) →
    Ends (fun f => sldLF rules f (nx + width r) (r.body.map (shiftLit nx)) (k f)) h1

/-- a subgoal ends when the bodies of the rules offered for it do -/
theorem sub_ends {rules : List (SRule K)} (ho : ∀ r ∈ rules, Naive.Ordered r) {q : Tm} {nx : Nat} {h : Heap} (hg : Good h)
    (hq : QOk h (BLit.sub q : BLit K)) {k : Nat → Deriv K → Nat → Body S} (hk : ∀ f d m, Restores (k f d m))
    (hbody : ∀ p ∈ offered rules (q.sub (res h)), RuleEnds S rules p.1)
    (hend : ∀ d m h1, Good h1 → (∀ τ, Respects h1 τ → Respects h τ) → Ground (q.sub (res h1)) → Ends (fun f => k f d m) h1) :
    Ends (fun f => sldF rules f nx (.sub q) (k f)) h := by
  obtain ⟨fq, eq⟩ := hg.deref q
  have hnc : ∀ c, q.sub (res h) ≠ .con c := by
    rcases hq with hq | ⟨n, hq, hn⟩
    · obtain ⟨c, as, rfl⟩ := hq q rfl
      simp
    · simp only [BLit.sub.injEq] at hq
      subst hq
      simp [res_unbound hn]
  have hall : Ends (fun f => forEach (offered rules (q.sub (res h))) fun p => unifyF f (shift nx p.1.head) q
      (sldLF rules f (nx + width p.1) (p.1.body.map (shiftLit nx)) fun ds nx' => k (f + 1) (.node p.2 (shift nx p.1.head) ds) nx')) h := by
    refine forEach_ends (k := fun f (p : SRule K × Nat) => unifyF f (shift nx p.1.head) q
      (sldLF rules f (nx + width p.1) (p.1.body.map (shiftLit nx)) fun ds nx' => k (f + 1) (.node p.2 (shift nx p.1.head) ds) nx')) fun p hp => ?_
    refine unify_ends (fun f => sldLF_restores f _ _ _ fun ds m => hk _ _ _) hg fun h1 g1 hr1 => ?_
    refine hbody p hp nx h1 (fun f ds nx' => k (f + 1) (.node p.2 (shift nx p.1.head) ds) nx') (fun f ds m => hk _ _ _) g1 ?_
    intro ds m h2 g2 hr2 hB
    refine Ends.later (hend (.node p.2 (shift nx p.1.head) ds) m h2 g2 (fun τ hτ => ((hr1 τ).1 (hr2 τ hτ)).1) ?_)
    rw [← ((hr1 _).1 (hr2 _ g2.respects_res)).2]
    refine hB.sub ?_
    have hmem : p.1 ∈ rules := List.mem_of_getElem? (offered_mem hp)
    have := boundBy_shift (nx := nx) (b := p.1.body) (B := ∅)
    rw [Finset.image_empty] at this
    rw [this, vars_shift, image_sub]
    exact (ho _ hmem).head
  obtain ⟨N, hN⟩ := hall
  refine ⟨max fq N + 1, fun s => ?_⟩
  obtain ⟨s', e⟩ := hN s
  refine ⟨s', fun f hf => ?_⟩
  obtain ⟨f, rfl⟩ : ∃ f', f = f' + 1 := ⟨f - 1, by omega⟩
  simp only [sldF]
  rw [deref_mono eq (by omega : fq ≤ f)]
  split
  · simp_all
  · rename_i c hc
    simp only [Option.some.injEq] at hc
    exact absurd hc (hnc c)
  · rename_i q' _ hc
    simp only [Option.some.injEq] at hc
    subst hc
    exact e f (by omega)

/-- no rule reaches its own functor, or one as high, from its body -/
def Descends (rank : Const → Nat) (r : SRule K) : Prop :=
  ∀ c as, r.head = .app (.con c :: as) → ∀ c' as', BLit.sub (.app (.con c' :: as')) ∈ r.body → rank c' < rank c

theorem body_ends {rules : List (SRule K)} (ho : ∀ r ∈ rules, Naive.Ordered r) : ∀ (zs : List (BLit K)),
    (∀ c as, BLit.sub (.app (.con c :: as)) ∈ zs → ∀ r ∈ rules, hfn r.head = some c → RuleEnds S rules r) → (∀ z ∈ zs, FnOk z) →
    ∀ nx h B (k : Nat → List (Deriv K) → Nat → Body S), (∀ f ds m, Restores (k f ds m)) → Good h → GrdOn h B → Moded B zs →
      (∀ ds m h1, Good h1 → (∀ τ, Respects h1 τ → Respects h τ) → GrdOn h1 (boundBy B zs) → Ends (fun f => k f ds m) h1) →
      Ends (fun f => sldLF rules f nx zs (k f)) h := by
  intro zs
  induction zs with
  | nil =>
    intro _ _ nx h B k hk hg hB _ hend
    exact Ends.succ (g' := fun f => k (f + 1) [] nx) (fun f => by funext h s; simp [sldLF]) (Ends.later (hend [] nx h hg (fun _ h => h) hB))
  | cons z zs ih =>
    intro hz hfn nx h B k hk hg hB hm hend
    have ih := ih (fun c as hc => hz c as (by simp [hc])) (fun z hz => hfn z (by simp [hz]))
    have hres : ∀ f d m, Restores (sldLF rules f m zs fun ds m' => k (f + 1) (d :: ds) m') := fun f d m => sldLF_restores f _ _ _ fun ds m => hk _ _ _
    refine Ends.succ (g' := fun f => sldF rules f nx z (fun d m => sldLF rules f m zs fun ds m' => k (f + 1) (d :: ds) m')) (fun f => by funext h s; simp [sldLF]) ?_
    have next : ∀ d m h1 B1, Good h1 → (∀ τ, Respects h1 τ → Respects h τ) → GrdOn h1 B1 → Moded B1 zs → boundBy B1 zs = boundBy B (z :: zs) →
        Ends (fun f => sldLF rules f m zs fun ds m' => k (f + 1) (d :: ds) m') h1 := by
      intro d m h1 B1 g1 hr1 hB1 hm1 hb1
      refine ih m h1 B1 (fun f ds m' => k (f + 1) (d :: ds) m') (fun f ds m => hk _ _ _) g1 hB1 hm1 ?_
      intro ds m' h2 g2 hr2 hB2
      exact Ends.later (hend (d :: ds) m' h2 g2 (fun τ hτ => hr1 τ (hr2 τ hτ)) (hb1 ▸ hB2))
    cases z with
    | val c =>
      exact Ends.succ (g' := fun f => sldLF rules (f + 1) nx zs fun ds m' => k (f + 2) (.const c :: ds) m') (fun f => by funext h s; simp [sldF])
        (Ends.later (g := fun f => sldLF rules f nx zs fun ds m' => k (f + 1) (.const c :: ds) m') (next _ _ h B hg (fun _ h => h) hB hm rfl))
    | eq x y =>
      refine Ends.succ (g' := fun f => unifyF f x y (sldLF rules (f + 1) nx zs fun ds m' => k (f + 2) (.bi x y :: ds) m')) (fun f => by funext h s; simp [sldF]) ?_
      refine unify_ends (k := fun f => sldLF rules (f + 1) nx zs fun ds m' => k (f + 2) (.bi x y :: ds) m') (fun f => hres _ _ _) hg ?_
      intro h1 g1 hr1
      have hB1 := hB.mono hg g1 fun τ hτ => ((hr1 τ).1 hτ).1
      refine Ends.later (g := fun f => sldLF rules f nx zs fun ds m' => k (f + 1) (.bi x y :: ds) m')
        (next _ _ h1 _ g1 (fun τ hτ => ((hr1 τ).1 hτ).1) ?_ hm rfl)
      have hxy := ((hr1 _).1 g1.respects_res).2
      split
      · rename_i hc
        have hgx : Ground (x.sub (res h1)) := by
          rcases hc with hc | hc
          · exact hB1.sub hc
          · rw [hxy]; exact hB1.sub hc
        intro n hn
        simp only [Finset.mem_union] at hn
        rcases hn with (hn | hn) | hn
        · exact hB1 n hn
        · exact Solver.ground_of_mem hgx hn
        · exact Solver.ground_of_mem (hxy ▸ hgx) hn
      · exact hB1
    | cmp o x y =>
      obtain ⟨hx, hy, hm⟩ := hm
      obtain ⟨fx, ex⟩ := hg.deref x
      obtain ⟨fy, ey⟩ := hg.deref y
      obtain ⟨Nx, hNx⟩ := groundF_evt _ _ _ ex
      obtain ⟨Ny, hNy⟩ := groundF_evt _ _ _ ey
      have gx : vars (x.sub (res h)) = ∅ := hB.sub hx
      have gy : vars (y.sub (res h)) = ∅ := hB.sub hy
      obtain ⟨N, hN⟩ := next (.bi x y) nx h B hg (fun _ h => h) hB hm rfl
      refine ⟨fx + fy + Nx + Ny + N + 1, fun s => ?_⟩
      obtain ⟨s', e⟩ := hN s
      by_cases ho : o (x.sub (res h)) (y.sub (res h)) = true
      · refine ⟨s', fun f hf => ?_⟩
        obtain ⟨f, rfl⟩ : ∃ f', f = f' + 1 := ⟨f - 1, by omega⟩
        simp only [sldF]
        rw [hNx f (by omega), hNy f (by omega), deref_mono ex (by omega : fx ≤ f), deref_mono ey (by omega : fy ≤ f)]
        simp only [gx, gy, decide_true, ho, if_true]
        exact e (f + 1) (by omega)
      · refine ⟨s, fun f hf => ?_⟩
        obtain ⟨f, rfl⟩ : ∃ f', f = f' + 1 := ⟨f - 1, by omega⟩
        simp only [sldF]
        rw [hNx f (by omega), hNy f (by omega), deref_mono ex (by omega : fx ≤ f), deref_mono ey (by omega : fy ≤ f)]
        simp only [gx, gy, decide_true, ho]
        rfl
    | sub q =>
      obtain ⟨c, as, rfl⟩ := hfn _ List.mem_cons_self q rfl
      refine sub_ends ho hg (.inl (hfn _ (by simp))) (k := fun f d m => sldLF rules f m zs fun ds m' => k (f + 1) (d :: ds) m') hres ?_ ?_
      · intro p hp
        refine hz c as (by simp) p.1 (List.mem_of_getElem? (offered_mem hp)) ?_
        simp only [sub_app, List.map_cons, sub_con, offered, List.mem_filter] at hp
        simpa using hp.2
      · intro d m h1 g1 hr1 hgr
        have hB1 := hB.mono hg g1 hr1
        refine next d m h1 (B ∪ vars (.app (.con c :: as))) g1 hr1 ?_ hm rfl
        intro n hn
        rcases Finset.mem_union.1 hn with hn | hn
        · exact hB1 n hn
        · exact Solver.ground_of_mem hgr hn

theorem rule_ends {rules : List (SRule K)} (hf : ∀ r ∈ rules, Formed r) (ho : ∀ r ∈ rules, Naive.Ordered r) {rank : Const → Nat}
    (hd : ∀ r ∈ rules, Descends rank r) : ∀ (d : Nat), ∀ r ∈ rules, ∀ c, hfn r.head = some c → rank c < d → RuleEnds S rules r := by
  intro d
  induction d with
  | zero => intro r _ c _ h; omega
  | succ d ih =>
    intro r hr c hc hlt nx h1 k hk g1 hend
    obtain ⟨c', as, hhd⟩ := (hf r hr).head
    have hcc : c' = c := by rw [hhd] at hc; simpa [hfn] using hc
    subst hcc
    refine body_ends ho (r.body.map (shiftLit nx)) ?_ ?_ _ h1 ∅ k hk g1 (by intro n hn; simp at hn) ?_ hend
    · intro c' as' hmem r' hr' hc'
      obtain ⟨z, hz, hzz⟩ := List.mem_map.1 hmem
      cases z with
      | val c => simp [shiftLit] at hzz
      | eq x y => simp [shiftLit] at hzz
      | cmp o x y => simp [shiftLit] at hzz
      | sub t =>
        obtain ⟨c2, as2, rfl⟩ := (hf r hr).body _ hz t rfl
        simp only [shiftLit, shift, sub_app, List.map_cons, sub_con, BLit.sub.injEq, Tm.app.injEq, List.cons.injEq, Tm.con.injEq] at hzz
        obtain ⟨rfl, _⟩ := hzz
        have := hd r hr _ _ hhd _ _ hz
        exact ih r' hr' _ hc' (by omega)
    · intro z hz t ht
      obtain ⟨z, hz', rfl⟩ := List.mem_map.1 hz
      cases z with
      | val c => simp [shiftLit] at ht
      | eq x y => simp [shiftLit] at ht
      | cmp o x y => simp [shiftLit] at ht
      | sub q' =>
        simp only [shiftLit, BLit.sub.injEq] at ht
        obtain ⟨c, as, rfl⟩ := (hf r hr).body _ hz' q' rfl
        exact ⟨c, as.map (shift nx), by rw [← ht]; simp [shift, sub_app]⟩
    · have := moded_shift (nx := nx) (ho r hr).body
      rwa [Finset.image_empty] at this

mutual
theorem derefD_ends {h : Heap} (hg : Good h) : ∀ d : Deriv K, ∃ N, ∀ f ≥ N, derefD h f d = some (subD (res h) d)
  | .const k => ⟨0, fun f _ => by simp [derefD, subD]⟩
  | .bi x y => by
    obtain ⟨fx, ex⟩ := hg.deref x
    obtain ⟨fy, ey⟩ := hg.deref y
    refine ⟨fx + fy, fun f hf => ?_⟩
    simp only [derefD, subD]
    rw [deref_mono ex (by omega : fx ≤ f), deref_mono ey (by omega : fy ≤ f)]
  | .node i x ds => by
    obtain ⟨fx, ex⟩ := hg.deref x
    obtain ⟨N, hN⟩ := derefDL_ends hg ds
    refine ⟨fx + N, fun f hf => ?_⟩
    simp only [derefD, subD]
    rw [deref_mono ex (by omega : fx ≤ f), hN f (by omega)]
theorem derefDL_ends {h : Heap} (hg : Good h) : ∀ ds : List (Deriv K), ∃ N, ∀ f ≥ N, derefDL h f ds = some (subDL (res h) ds)
  | [] => ⟨0, fun f _ => by simp [derefDL, subDL]⟩
  | d :: ds => by
    obtain ⟨N, hN⟩ := derefD_ends hg d
    obtain ⟨M, hM⟩ := derefDL_ends hg ds
    refine ⟨N + M, fun f hf => ?_⟩
    simp only [derefDL, subDL]
    rw [hN f (by omega), hM f (by omega)]
end

/-- `sld` ends, with all derivations, on a program without recursion whose bodies bind their variables from left to
right. -/
theorem C70_total {rules : List (SRule K)} (hf : ∀ r ∈ rules, Formed r) (ho : ∀ r ∈ rules, Naive.Ordered r) {rank : Const → Nat}
    (hd : ∀ r ∈ rules, Descends rank r) {x : Tm} (hx : Asks x) : ∃ N out, ∀ f ≥ N, sldQ rules none f x = some (out, .done) := by
  have : Ends (fun f => sldF rules f (bound x) (.sub x) (fun d _ => collect none f d)) noHeap := by
    refine sub_ends ho good_noHeap ?_ (k := fun f d _ => collect none f d) ?_ ?_ ?_
    · rcases hx with ⟨c, as, rfl⟩ | ⟨n, rfl⟩
      · left; intro t ht; simp only [BLit.sub.injEq] at ht; exact ⟨c, as, ht.symm⟩
      · exact .inr ⟨n, rfl, rfl⟩
    · intro f d m h s h' s' sig e
      simp only [collect] at e
      split at e
      · simp at e
      · simp only [Option.some.injEq, Prod.mk.injEq] at e; exact e.1.symm
    · intro p hp
      have hmem := List.mem_of_getElem? (offered_mem hp)
      obtain ⟨c, as, hhd⟩ := (hf _ hmem).head
      exact rule_ends hf ho hd (rank c + 1) p.1 hmem c (by simp [hhd, hfn]) (by omega)
    · intro d m h1 g1 _ _
      obtain ⟨N, hN⟩ := derefD_ends g1 d
      refine ⟨N, fun s => ⟨s ++ [subD (res h1) d], fun f hf => ?_⟩⟩
      simp [collect, hN f hf]
  obtain ⟨N, hN⟩ := this
  obtain ⟨out, ho⟩ := hN []
  exact ⟨N, out, fun f hf => by unfold sldQ; simp only at ho; rw [ho f hf]; rfl⟩

end Total

/-! ### Recursion -/

private def ct (s : String) : Tm := .con (.str s)
private def x0 : Tm := .app [ct "x"]

/-- `x += x * 5.  x += 1.` -/
def leftRec : List (SRule ℕ) := [⟨x0, [.sub x0, .val 5]⟩, ⟨x0, [.val 1]⟩]
/-- `x += 1.  x += x * 5.` -/
def rightRec : List (SRule ℕ) := [⟨x0, [.val 1]⟩, ⟨x0, [.sub x0, .val 5]⟩]

private theorem unify_x0 (f : Nat) (b : Body S) (h : Heap) (s : S) : unifyF f x0 x0 b h s = none ∨ unifyF f x0 x0 b h s = b h s := by
  match f with
  | 0 => simp [unifyF]
  | 1 => simp [x0, unifyF, eqF]
  | 2 => simp [x0, ct, unifyF, eqF, eqLF]
  | 3 => simp [x0, ct, unifyF, eqF, eqLF]
  | f + 4 => right; simp [x0, ct, unifyF, eqF, eqLF]

private theorem deref_x0 (f : Nat) (h : Heap) : derefF h f x0 = none ∨ derefF h f x0 = some x0 := by
  match f with
  | 0 => simp [derefF]
  | 1 => simp [x0, derefF, allSome]
  | 2 => simp [x0, ct, derefF, allSome]
  | f + 3 => right; simp [x0, ct, derefF, allSome]

private theorem shift_x0 (nx : Nat) : shift nx x0 = x0 := by simp [shift, x0, ct]

private theorem left_loops : ∀ f nx (k : Deriv ℕ → Nat → Body S) h s, sldF leftRec f nx (.sub x0) k h s = none ∧
    ∀ zs k, sldLF leftRec f nx (BLit.sub x0 :: zs) k h s = none := by
  intro f
  induction f with
  | zero => intro nx k h s; exact ⟨by simp [sldF], fun zs k => by simp [sldLF]⟩
  | succ f ih =>
    intro nx k h s
    refine ⟨?_, fun zs k => by simp only [sldLF]; exact (ih _ _ _ _).1⟩
    simp only [sldF]
    rcases deref_x0 f h with e | e
    · rw [e]
    · rw [e]
      have : offered leftRec x0 = [(⟨x0, [.sub x0, .val 5]⟩, 0), (⟨x0, [.val 1]⟩, 1)] := by simp [offered, leftRec, x0, ct, hfn, List.zipIdx]
      simp only [x0, this]
      rw [show Tm.app [ct "x"] = x0 from rfl, this, forEach, shift_x0]
      simp only [List.map_cons, shiftLit, shift_x0]
      rcases unify_x0 f (sldLF leftRec f (nx + width (⟨x0, [.sub x0, .val 5]⟩ : SRule ℕ)) (.sub x0 :: .val 5 :: List.map (shiftLit nx) [])
        fun ds nx' => k (.node 0 x0 ds) nx') h s with e1 | e1
      · rw [e1]
      · rw [e1, (ih _ (fun _ _ => fun _ _ => none) h s).2]

/-- Depth first search goes down a left-recursive rule: `sld` yields nothing for `x += x * 5.  x += 1.`, not even its
first derivation, however long it runs. -/
theorem C70_left_recursion (lim : Option Nat) (f : Nat) : sldQ leftRec lim f x0 = none := by
  unfold sldQ
  rw [(left_loops f _ _ _ _).1]; rfl

/-- `x` by `i` uses of the second rule of `rightRec` -/
def chain : Nat → Deriv ℕ
  | 0 => .node 0 x0 [.const 1]
  | i + 1 => .node 1 x0 [chain i, .const 5]

private theorem right_takes : ∀ n (k : Deriv ℕ → Body S) (h : Heap) (s : Nat → S), (∀ i < n, k (chain i) h (s i) = some (h, s (i + 1), .done)) →
    k (chain n) h (s n) = some (h, s (n + 1), .brk) → ∀ f ≥ 3 * n + 6, ∀ nx, sldF rightRec f nx (.sub x0) (fun d _ => k d) h (s 0) = some (h, s (n + 1), .brk) := by
  have hof : offered rightRec x0 = [(⟨x0, [.val 1]⟩, 0), (⟨x0, [.sub x0, .val 5]⟩, 1)] := by simp [offered, rightRec, x0, ct, hfn, List.zipIdx]
  have hun : ∀ f (b : Body S) (h : Heap) (s : S), unifyF (f + 4) x0 x0 b h s = b h s := fun f b h s => by simp [x0, ct, unifyF, eqF, eqLF]
  have hde : ∀ f h, derefF h (f + 4) x0 = some x0 := fun f h => by simp [x0, ct, derefF, allSome]
  have step : ∀ f nx (k : Deriv ℕ → Body S) (h : Heap) (s : S), sldF rightRec (f + 6) nx (.sub x0) (fun d _ => k d) h s =
      match k (.node 0 x0 [.const 1]) h s with
      | none => none
      | some (h', s', .done) => forEach [((⟨x0, [.sub x0, .val 5]⟩ : SRule ℕ), 1)] (fun p => sldF rightRec (f + 4) (nx + width p.1) (.sub x0)
          fun d _ => k (.node 1 x0 [d, .const 5])) h' s'
      | some r => some r := by
    intro f nx k h s
    rw [sldF]
    simp only [hde]
    rw [show (x0 : Tm) = .app [ct "x"] from rfl] at hof ⊢
    simp only [hof]
    rw [show Tm.app [ct "x"] = x0 from rfl]
    simp only [forEach, List.map_cons, List.map_nil, shiftLit, shift_x0, hun, sldLF, sldF]
    rfl
  intro n
  induction n with
  | zero =>
    intro k h s _ hlast f hf nx
    obtain ⟨f, rfl⟩ : ∃ f', f = f' + 6 := ⟨f - 6, by omega⟩
    rw [step]
    simp only [chain] at hlast
    rw [hlast]
  | succ n ih =>
    intro k h s hpre hlast f hf nx
    obtain ⟨f, rfl⟩ : ∃ f', f = f' + 6 := ⟨f - 6, by omega⟩
    rw [step]
    have h0 := hpre 0 (by omega)
    simp only [chain] at h0
    rw [h0]
    simp only [forEach]
    rw [ih (fun d => k (.node 1 x0 [d, .const 5])) h (fun i => s (i + 1)) (fun i hi => hpre (i + 1) (by omega)) hlast (f + 4) (by omega)]

private theorem deref_chain (f : Nat) (h : Heap) : ∀ i, derefD h (f + 4) (chain i) = some (chain i) := by
  have hde : ∀ f h, derefF h (f + 4) x0 = some x0 := fun f h => by simp [x0, ct, derefF, allSome]
  intro i
  induction i with
  | zero => simp [chain, derefD, derefDL, hde]
  | succ i ih => simp [chain, derefD, derefDL, hde, ih]

/-- The enumeration is lazy: of the infinitely many derivations of `x` by `x += 1.  x += x * 5.` the first `n` can be
taken, for every `n`. -/
theorem C70_lazy (n : Nat) : ∀ f ≥ 3 * n + 6, sldQ rightRec (some (n + 1)) f x0 = some ((List.range (n + 1)).map chain, .brk) := by
  intro f hf
  unfold sldQ
  have := right_takes (S := List (Deriv ℕ)) n (collect (some (n + 1)) f) noHeap (fun i => (List.range i).map chain) ?_ ?_ f hf (bound x0)
  · rw [show ([] : List (Deriv ℕ)) = (fun i => (List.range i).map chain) 0 from rfl, this]; rfl
  · intro i hi
    obtain ⟨f, rfl⟩ : ∃ f', f = f' + 4 := ⟨f - 4, by omega⟩
    simp only [collect, deref_chain, List.length_map, List.length_range, Option.some.injEq, List.range_succ, List.map_append, List.map_cons, List.map_nil, Prod.mk.injEq, true_and]
    rw [if_neg (by omega)]
  · obtain ⟨f, rfl⟩ : ∃ f', f = f' + 4 := ⟨f - 4, by omega⟩
    simp [collect, deref_chain, List.range_succ]

/-! ### Examples -/

section Examples
open Query (Moded boundBy)

private def X : Tm := .var 0
private def Y : Tm := .var 1
private def Z : Tm := .var 2
private def edge (a b : Tm) : Tm := .app [ct "edge", a, b]
private def two (a b : Tm) : Tm := .app [ct "two", a, b]

/-- `edge(a,b) += 2.  edge(a,d) += 5.  edge(b,c) += 3.  edge(d,c) += 7.  two(X,Z) += edge(X,Y) * edge(Y,Z).` -/
private def prog : List (SRule ℕ) :=
  [⟨edge (ct "a") (ct "b"), [.val 2]⟩, ⟨edge (ct "a") (ct "d"), [.val 5]⟩, ⟨edge (ct "b") (ct "c"), [.val 3]⟩, ⟨edge (ct "d") (ct "c"), [.val 7]⟩,
    ⟨two X Z, [.sub (edge X Y), .sub (edge Y Z)]⟩]

-- the two derivations of `two(a,c)`, found by asking for `two(X,Z)`: the number of the rule and the item of each node, the values
private def flat : Deriv ℕ → List (Nat × Tm)
  | .node i x ds => (i, x) :: ds.map fun | .node j y _ => (j, y) | _ => (99, .app [])
  | _ => []
example : (sldQ prog none 40 (two X Z)).map (fun p => p.1.map flat) =
    some [[(4, two (ct "a") (ct "c")), (0, edge (ct "a") (ct "b")), (2, edge (ct "b") (ct "c"))],
      [(4, two (ct "a") (ct "c")), (1, edge (ct "a") (ct "d")), (3, edge (ct "d") (ct "c"))]] := by decide +kernel
private theorem prog_runs : ∃ out, sldQ prog none 40 (two X Z) = some (out, .done) ∧ out.map (fun d => (Deriv.leaves d).prod) = [6, 35] := by
  have h : (sldQ prog none 40 (two X Z)).map (fun p => (p.1.map (fun d => (Deriv.leaves d).prod), p.2)) = some ([6, 35], .done) := by decide +kernel
  rw [Option.map_eq_some_iff] at h
  obtain ⟨⟨out, sig⟩, e, h⟩ := h
  simp only [Prod.mk.injEq] at h
  obtain ⟨h, rfl⟩ := h
  exact ⟨out, e, h⟩
example : (sldQ prog (some 1) 40 (two X Z)).map (fun p => (p.1.map (fun d => (Deriv.leaves d).prod), p.2)) = some ([6], .brk) := by decide +kernel
-- a variable as the query: all rules are tried
example : (sldQ prog none 40 X).map (fun p => (p.1.map (fun d => (Deriv.leaves d).prod), p.2)) = some ([2, 5, 3, 7, 6, 35], .done) := by decide +kernel

private def rank : Const → Nat := fun c => if c = .str "two" then 1 else 0

private theorem prog_ok : ∀ r ∈ prog, Formed r ∧ Safe r ∧ Naive.Ordered r ∧ Descends rank r := by
  intro r hr
  simp only [prog, List.mem_cons, List.not_mem_nil, or_false] at hr
  have fact : ∀ a b v, Formed (⟨edge (ct a) (ct b), [.val v]⟩ : SRule ℕ) ∧ Safe (⟨edge (ct a) (ct b), [.val v]⟩ : SRule ℕ) ∧
      Naive.Ordered (⟨edge (ct a) (ct b), [.val v]⟩ : SRule ℕ) ∧ Descends rank (⟨edge (ct a) (ct b), [.val v]⟩ : SRule ℕ) := by
    intro a b v
    refine ⟨⟨⟨_, _, rfl⟩, ?_⟩, ⟨?_, ?_⟩, ⟨?_, ?_⟩, ?_⟩
    · intro z hz t ht; simp only [List.mem_singleton] at hz; subst hz; simp at ht
    · intro n hn
      rcases hn with hn | ⟨z, hz, hn⟩
      · simp [edge, ct] at hn
      · simp only [List.mem_singleton] at hz; subst hz; simp [litVars] at hn
    · intro t ht; simp at ht
    · simp [Moded]
    · simp [edge, ct]
    · intro c as _ c' as' h; simp at h
  rcases hr with rfl | rfl | rfl | rfl | rfl
  · exact fact _ _ _
  · exact fact _ _ _
  · exact fact _ _ _
  · exact fact _ _ _
  · refine ⟨⟨⟨_, _, rfl⟩, ?_⟩, ⟨?_, ?_⟩, ⟨?_, ?_⟩, ?_⟩
    · intro z hz t ht
      simp only [List.mem_cons, List.not_mem_nil, or_false] at hz
      rcases hz with rfl | rfl <;> simp only [BLit.sub.injEq] at ht <;> subst ht <;> exact ⟨_, _, rfl⟩
    · intro n hn
      have : n = 0 ∨ n = 1 ∨ n = 2 := by
        rcases hn with hn | ⟨z, hz, hn⟩
        · simp [two, X, Z, ct] at hn; omega
        · simp only [List.mem_cons, List.not_mem_nil, or_false] at hz
          rcases hz with rfl | rfl <;> simp [litVars, edge, X, Y, Z, ct] at hn <;> omega
      rcases this with rfl | rfl | rfl
      · exact .sub (t := edge X Y) (by simp) (by simp [edge, X, Y, ct])
      · exact .sub (t := edge X Y) (by simp) (by simp [edge, X, Y, ct])
      · exact .sub (t := edge Y Z) (by simp) (by simp [edge, Y, Z, ct])
    · intro t ht
      simp only [List.mem_cons, BLit.sub.injEq, List.not_mem_nil, or_false] at ht
      rcases ht with rfl | rfl <;> exact ⟨_, _, rfl⟩
    · simp [Moded]
    · decide
    · intro c as h c' as' h'
      simp only [two, ct, Tm.app.injEq, List.cons.injEq, Tm.con.injEq] at h
      simp only [edge, ct, List.mem_cons, BLit.sub.injEq, Tm.app.injEq, List.cons.injEq, Tm.con.injEq, List.not_mem_nil, or_false] at h'
      rw [← h.1]
      rcases h' with h' | h' <;> rw [h'.1] <;> decide

-- the hypotheses of C70_total, C70_exact and C70_value
example : ∃ N out, ∀ f ≥ N, sldQ prog none f (two X Z) = some (out, .done) :=
  C70_total (fun r h => (prog_ok r h).1) (fun r h => (prog_ok r h).2.2.1) (fun r h => (prog_ok r h).2.2.2) (.inl ⟨_, _, rfl⟩)
example : ∃ out : List (Deriv ℕ), out.length = 2 ∧ out.Nodup ∧ ∀ d, d ∈ out ↔ ∃ θ, IsDeriv prog ((two X Z).sub θ) d := by
  obtain ⟨out, e, h⟩ := prog_runs
  exact ⟨out, by simpa using congrArg List.length h, C70_exact (fun r h => (prog_ok r h).1) (fun r h => (prog_ok r h).2.1) (.inl ⟨_, _, rfl⟩) e⟩

/-- `any(X,Y) += 1.  p(X) += any(X,Y).  q(a) += p(a).` -/
private def open' : List (SRule ℕ) :=
  [⟨.app [ct "any", X, Y], [.val 1]⟩, ⟨.app [ct "p", X], [.sub (.app [ct "any", X, Y])]⟩, ⟨.app [ct "q", ct "a"], [.sub (.app [ct "p", ct "a"])]⟩]
-- one tree for the infinitely many derivations of the instances of `p(X)`; its variables are those of the copies of the rules
example : (sldQ open' none 40 (.app [ct "p", X])).map (fun p => p.1.map flat) = some [[(1, .app [ct "p", .var 0]), (0, .app [ct "any", .var 0, .var 2])]] := by
  decide +kernel
example : ∀ r ∈ open', Formed r := by
  intro r hr
  simp only [open', List.mem_cons, List.not_mem_nil, or_false] at hr
  rcases hr with rfl | rfl | rfl <;> refine ⟨⟨_, _, rfl⟩, ?_⟩ <;> intro z hz t ht <;> simp only [List.mem_singleton] at hz <;> subst hz <;>
    simp only [BLit.sub.injEq, reduceCtorEq] at ht
  · subst ht; exact ⟨_, _, rfl⟩
  · subst ht; exact ⟨_, _, rfl⟩

/-- `s(X) += X < 3 * n(X).  n(2) += 1.` -/
private def early : List (SRule ℕ) := [⟨.app [ct "s", X], [.cmp (fun _ _ => true) X (ct "3"), .sub (.app [ct "n", X])]⟩, ⟨.app [ct "n", ct "2"], [.val 1]⟩]
-- a comparison reached before its arguments are bound makes `sld` recurse without end
example : (sldQ early none 40 (.app [ct "s", X])).map (fun p => (p.1.length, p.2)) = some (0, recursion) := by decide +kernel
example : (sldQ early none 40 (.app [ct "s", ct "2"])).map (fun p => (p.1.length, p.2)) = some (1, .done) := by decide +kernel

end Examples

end Sld
end Verif
