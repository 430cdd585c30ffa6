/-
The nodes of `CoarseGraph` (`/repo/dyna/analyze/coarse_graph.py` 14-23) as the transformations of `Slash.lean` use them, and
the names these transformations generate.
-/
import Verif.SlashRun
import Verif.GeneralizeThm

set_option linter.unusedSectionVars false
set_option linter.unusedSimpArgs false

namespace Verif
open Tm Heap Sem

namespace Slash
variable {W : Type}

/-! ### The counter -/

theorem genVar1_k (fv : Nat → Nat) (x : Tm) (n : Nat) (y : Tm) (g : GS) : g.k ≤ (genVar1 fv x n y g).2.k := by
  unfold genVar1
  repeat' split
  all_goals simp [GS.bump, GS.set1]
theorem genVar2_k (fv : Nat → Nat) (x y : Tm) (m : Nat) (g : GS) : g.k ≤ (genVar2 fv x y m g).2.k := by
  unfold genVar2
  repeat' split
  all_goals simp [GS.bump, GS.set2]
theorem genElse_k (fv : Nat → Nat) (x y : Tm) (g : GS) : g.k ≤ (genElse fv x y g).2.k := by
  unfold genElse
  repeat' split
  all_goals simp [GS.bump, GS.set1, GS.set2]

theorem traverseL_k {fv : Nat → Nat} : ∀ {as : List Tm}, (∀ a ∈ as, ∀ b g, g.k ≤ (traverse fv a b g).2.k) → ∀ bs g, g.k ≤ (traverseL fv as bs g).2.k
  | [], _, bs, g => by simp [traverseL]
  | a :: as, h, [], g => by simp [traverseL]
  | a :: as, h, b :: bs, g => by
    rw [traverseL]
    exact le_trans (h a (by simp) b g) (traverseL_k (fun a ha => h a (by simp [ha])) bs _)

theorem traverse_k (fv : Nat → Nat) (x : Tm) : ∀ y g, g.k ≤ (traverse fv x y g).2.k := by
  induction x using ind with
  | hv n =>
    intro y g
    rw [traverse]
    split
    · exact le_refl _
    · exact genVar1_k _ _ _ _ _
  | hc c =>
    intro y g
    rw [traverse.eq_def]
    simp only
    split
    · exact le_refl _
    · split
      · exact genVar2_k _ _ _ _ _
      · exact genElse_k _ _ _ _
  | ha as ih =>
    intro y g
    rw [traverse.eq_def]
    simp only
    split
    · exact le_refl _
    · split
      · exact genVar2_k _ _ _ _ _
      · split
        · exact traverseL_k ih _ _
        · exact genElse_k _ _ _ _
      · exact genElse_k _ _ _ _

theorem scan_k {fv : Nat → Nat} (hfv : Function.Injective fv) {f : Nat} : ∀ {rev : List Tm} {r : Tm} {k : Nat} {keep : List Tm} {r' : Tm} {k' : Nat},
    DisjointEst.scan fv f rev r k = some (keep, r', k') → k ≤ k'
  | [], r, k, keep, r', k', e => by
    simp only [DisjointEst.scan, Option.some.injEq, Prod.mk.injEq] at e; omega
  | x :: rev, r, k, keep, r', k', e => by
    rw [DisjointEst.scan] at e
    cases h1 : Heap.unifiesF f r x (fun _ => none) with
    | none => simp [h1] at e
    | some b =>
      cases b with
      | true =>
        simp only [h1] at e
        have h2 := scan_k hfv e
        have h3 := (freshV_spec hfv (generalizer fv k r x).2 (generalizer fv k r x).1).2.1
        have h4 : k ≤ (generalizer fv k r x).2 := traverse_k fv r x ⟨fun _ => none, fun _ => none, k⟩
        omega
      | false =>
        simp only [h1] at e
        cases h2 : DisjointEst.scan fv f rev r k with
        | none => simp [h2] at e
        | some q =>
          obtain ⟨q1, q2, q3⟩ := q
          simp only [h2, Option.some.injEq, Prod.mk.injEq] at e
          have := scan_k hfv h2
          omega

theorem addAll_k {fv cv : Nat → Nat} (hfv : Function.Injective fv) {f : Nat} : ∀ {ts : List Tm} {S S' : TSet},
    addAll (DisjointEst.add fv cv f) S ts = some S' → S.k ≤ S'.k
  | [], S, S', e => by simp only [addAll, Option.some.injEq] at e; rw [e]
  | t :: ts, S, S', e => by
    rw [addAll] at e
    cases h1 : DisjointEst.add fv cv f S t with
    | none => simp [h1] at e
    | some S1 =>
      simp only [h1] at e
      have h2 := addAll_k hfv e
      unfold DisjointEst.add at h1
      simp only at h1
      cases h3 : DisjointEst.scan fv f S.xs.reverse (freshV fv S.k t).1 (freshV fv S.k t).2 with
      | none => simp [h3] at h1
      | some q =>
        simp only [h3, Option.some.injEq] at h1
        have h4 := scan_k hfv (keep := q.1) (r' := q.2.1) (k' := q.2.2) h3
        have h5 := (freshV_spec hfv S.k t).2.1
        have : S1.k = q.2.2 := by rw [← h1]
        omega

/-! ### Functors -/

theorem traverseL_length {fv : Nat → Nat} : ∀ {as bs : List Tm} {g : GS}, as.length = bs.length → (traverseL fv as bs g).1.length = as.length
  | [], bs, g, h => by simp [traverseL]
  | a :: as, [], g, h => by simp at h
  | a :: as, b :: bs, g, h => by
    rw [traverseL]
    simp [traverseL_length (fv := fv) (as := as) (bs := bs) (by simpa using h)]

theorem traverse_sig {fv : Nat → Nat} {x y : Tm} (hx : Named x) (hy : Named y) (h : sigOf x = sigOf y) (g : GS) : sigOf (traverse fv x y g).1 = sigOf x := by
  obtain ⟨c, as, rfl⟩ := hx
  obtain ⟨c', bs, rfl⟩ := hy
  simp only [sigOf, Option.some.injEq, Prod.mk.injEq] at h
  obtain ⟨rfl, hl⟩ := h
  rw [traverse.eq_def]
  simp only
  split
  · rfl
  · rw [if_pos (by simp [hl])]
    rw [traverseL]
    have : (traverse fv (Tm.con c) (Tm.con c) g).1 = .con c := by rw [traverse.eq_def]; simp
    simp only [this, sigOf, traverseL_length hl]

theorem sig_of_unify {x y : Tm} (hx : Named x) (hy : Named y) {θ : Nat → Tm} (h : x.sub θ = y.sub θ) : sigOf x = sigOf y := by
  rw [← sigOf_sub hx θ, h, sigOf_sub hy]

theorem sig_named {t u : Tm} (ht : Named t) (h : sigOf u = sigOf t) : Named u := (sigOf_hfn ht h).2

/-- the functor and arity of some term of the list -/
def SigIn (ts : List Tm) (s : Tm) : Prop := ∃ t ∈ ts, Named t ∧ sigOf s = sigOf t

theorem SigIn.named {ts : List Tm} {s : Tm} (h : SigIn ts s) : Named s := by
  obtain ⟨t, _, h1, h2⟩ := h; exact sig_named h1 h2

theorem SigIn.mono {ts us : List Tm} {s : Tm} (h : SigIn ts s) (hs : ∀ t ∈ ts, t ∈ us) : SigIn us s := by
  obtain ⟨t, h0, h⟩ := h; exact ⟨t, hs t h0, h⟩

theorem SigIn.fresh {ts : List Tm} {s : Tm} (h : SigIn ts s) {fv : Nat → Nat} (hfv : Function.Injective fv) (k : Nat) : SigIn ts (freshV fv k s).1 := by
  obtain ⟨t, h0, h1, h2⟩ := h
  exact ⟨t, h0, h1, by rw [fresh_sig hfv k (sig_named h1 h2), h2]⟩

theorem scan_sig {fv : Nat → Nat} (hfv : Function.Injective fv) {ts : List Tm} {f : Nat} : ∀ {rev : List Tm} {r : Tm} {k : Nat} {keep : List Tm} {r' : Tm} {k' : Nat},
    (∀ s ∈ rev, SigIn ts s) → SigIn ts r → DisjointEst.scan fv f rev r k = some (keep, r', k') → (∀ s ∈ keep, SigIn ts s) ∧ SigIn ts r'
  | [], r, k, keep, r', k', _, hr, e => by
    simp only [DisjointEst.scan, Option.some.injEq, Prod.mk.injEq] at e
    obtain ⟨rfl, rfl, rfl⟩ := e
    exact ⟨by simp, hr⟩
  | x :: rev, r, k, keep, r', k', hrev, hr, e => by
    rw [DisjointEst.scan] at e
    have hx := hrev x (by simp)
    cases h1 : Heap.unifiesF f r x (fun _ => none) with
    | none => simp [h1] at e
    | some b =>
      cases b with
      | true =>
        simp only [h1] at e
        obtain ⟨θ, hu⟩ := (DisjointEst.empty_unifies h1).1 rfl
        refine scan_sig hfv (fun s hs => hrev s (by simp [hs])) (SigIn.fresh ?_ hfv _) e
        obtain ⟨t, t0, t1, t2⟩ := hr
        exact ⟨t, t0, t1, by
          rw [← t2]
          exact traverse_sig (sig_named t1 t2) hx.named (sig_of_unify (sig_named t1 t2) hx.named hu) _⟩
      | false =>
        simp only [h1] at e
        cases h2 : DisjointEst.scan fv f rev r k with
        | none => simp [h2] at e
        | some q =>
          obtain ⟨q1, q2, q3⟩ := q
          simp only [h2, Option.some.injEq, Prod.mk.injEq] at e
          obtain ⟨rfl, rfl, rfl⟩ := e
          obtain ⟨a, b⟩ := scan_sig hfv (fun s hs => hrev s (by simp [hs])) hr h2
          refine ⟨fun s hs => ?_, b⟩
          rcases List.mem_append.1 hs with hs | hs
          · exact a s hs
          · simp at hs; rw [hs]; exact hx

theorem addAll_sig {fv cv : Nat → Nat} (hfv : Function.Injective fv) (hcv : Function.Injective cv) {us : List Tm} {f : Nat} : ∀ {ts : List Tm} {S S' : TSet},
    (∀ t ∈ ts, t ∈ us ∧ Named t) → (∀ s ∈ S.xs, SigIn us s) → addAll (DisjointEst.add fv cv f) S ts = some S' → ∀ s ∈ S'.xs, SigIn us s
  | [], S, S', _, hS, e => by simp only [addAll, Option.some.injEq] at e; rw [← e]; exact hS
  | t :: ts, S, S', ht, hS, e => by
    rw [addAll] at e
    cases h1 : DisjointEst.add fv cv f S t with
    | none => simp [h1] at e
    | some S1 =>
      simp only [h1] at e
      refine addAll_sig hfv hcv (fun t h => ht t (by simp [h])) ?_ e
      unfold DisjointEst.add at h1
      simp only at h1
      cases h3 : DisjointEst.scan fv f S.xs.reverse (freshV fv S.k t).1 (freshV fv S.k t).2 with
      | none => simp [h3] at h1
      | some q =>
        obtain ⟨keep, r', k'⟩ := q
        simp only [h3, Option.some.injEq] at h1
        have ht' := ht t (by simp)
        obtain ⟨a, b⟩ := scan_sig hfv (fun s hs => hS s (by simpa using hs)) (SigIn.fresh ⟨t, ht'.1, ht'.2, rfl⟩ hfv S.k) h3
        rw [← h1]
        intro s hs
        rcases List.mem_append.1 hs with hs | hs
        · exact a s hs
        · simp at hs
          obtain ⟨σ, e⟩ := (canonP_variant hcv r').instanceOf
          obtain ⟨u, u0, u1, u2⟩ := b
          refine ⟨u, u0, u1, ?_⟩
          rw [hs, ← e, sigOf_sub (sig_named u1 u2), u2]

/-! ### Names -/

theorem genLocalGo_prefix {syms : List String} {pre : String} : ∀ {fuel c : Nat} {g f : String}, (∃ s, g = pre ++ s) → GenFunctor.genLocalGo syms pre fuel c g = some f → ∃ s, f = pre ++ s
  | 0, _, _, _, _, e => by simp [GenFunctor.genLocalGo] at e
  | fuel + 1, c, g, f, h, e => by
    rw [GenFunctor.genLocalGo] at e
    split at e
    · exact genLocalGo_prefix ⟨_, rfl⟩ e
    · simp only [Option.some.injEq] at e; rw [← e]; exact h

theorem genLocal_prefix {syms : List String} {pre : String} {fuel : Nat} {f : String} (e : GenFunctor.genLocal syms pre fuel = some f) : ∃ s, f = pre ++ s :=
  genLocalGo_prefix ⟨"", by simp⟩ e

theorem slash_ne_other {a b : String} : "/" ++ a ≠ "$other" ++ b := by
  intro h
  have := congrArg String.toList h
  simp [String.toList_append] at this

theorem slash_ne_nm {a : String} : "/" ++ a ≠ "$not_matches" := by
  intro h
  have := congrArg String.toList h
  simp [String.toList_append] at this

theorem other_ne_nm {a : String} : "$other" ++ a ≠ "$not_matches" := by
  intro h
  have := congrArg String.toList h
  simp [String.toList_append] at this

theorem name_new {rules : List (WRule W)} {pre : String} {fuel : Nat} {f : String} (e : GenFunctor.genLocal (strs rules) pre fuel = some f) :
    ∀ r ∈ rules, hfn r.head ≠ some (.str f) ∧ ∀ t, Lit.sub t ∈ r.body → hfn t ≠ some (.str f) := by
  have hf := GenFunctor.C20_local e
  intro r hr
  have key : Const.str f ∉ Hook.syms (⟨rules, []⟩ : Unfold.Prog W) := fun h => hf (by
    unfold strs
    rw [List.mem_filterMap]
    exact ⟨_, h, rfl⟩)
  constructor
  · intro h
    apply key
    unfold Hook.syms
    rw [List.mem_flatMap]
    exact ⟨r, hr, by simp [h]⟩
  · intro t ht h
    apply key
    unfold Hook.syms
    rw [List.mem_flatMap]
    refine ⟨r, hr, ?_⟩
    rw [List.mem_append, List.mem_filterMap]
    exact .inr ⟨_, ht, by simpa [Hook.litFn] using h⟩

end Slash
end Verif
