/-
Properties C45 (truncation of types) and C46 (flattening and joining).
-/
import Verif.TermTools
import Verif.TermOpsThm
import Mathlib.Data.Set.Finite.List
import Mathlib.Data.Set.Finite.Lattice
import Mathlib.Data.List.Flatten
import Mathlib.Data.List.Lex
import Mathlib.Data.Finset.Max
import Mathlib.Tactic.Ring
import Mathlib.Order.Interval.Finset.Nat

set_option linter.unusedSectionVars false
set_option linter.unusedSimpArgs false

namespace Verif
open Tm Heap

/-! ### Dereferencing one step at a time -/

theorem snap_spec {h : Heap} (hg : Good h) : ∀ {f : Nat} {x y : Tm}, snapF h f x = some y →
    y.sub (res h) = x.sub (res h) ∧ ∀ n, y = .var n → h n = none := by
  intro f
  induction f with
  | zero => intro x y e; simp [snapF] at e
  | succ f ih =>
    intro x y e
    cases x with
    | var n =>
      cases hn : h n with
      | none => simp [snapF, hn] at e; subst e; exact ⟨rfl, by rintro m ⟨⟩; exact hn⟩
      | some u =>
        simp only [snapF, hn] at e
        have := ih e
        exact ⟨by rw [this.1, sub_var, hg.res_bound hn], this.2⟩
    | con c => simp [snapF] at e; subst e; simp
    | app as => simp [snapF] at e; subst e; simp

theorem snap_mono {h : Heap} : ∀ {f g : Nat} {x y : Tm}, snapF h f x = some y → f ≤ g → snapF h g x = some y := by
  intro f
  induction f with
  | zero => intro g x y e; simp [snapF] at e
  | succ f ihf =>
    intro g x y e hg
    obtain ⟨g, rfl⟩ : ∃ g', g = g' + 1 := ⟨g - 1, by omega⟩
    cases x with
    | var n =>
      cases hn : h n with
      | none => simpa only [snapF, hn] using e
      | some u => simp only [snapF, hn] at e ⊢; exact ihf e (by omega)
    | con c => simpa only [snapF] using e
    | app as => simpa only [snapF] using e

theorem snap_evt {h : Heap} : ∀ f1 x x', derefF h f1 x = some x' → Evt (fun f => ∃ y, snapF h f x = some y) := by
  intro f1
  induction f1 with
  | zero => intro x x' e; simp [derefF] at e
  | succ f1 ih =>
    intro x x' e
    cases x with
    | var n =>
      cases hn : h n with
      | none => exact .of_succ fun f => ⟨.var n, by simp only [snapF, hn]⟩
      | some u =>
        simp only [derefF, hn] at e
        refine .succ ((ih u x' e).mono fun f hf => ?_)
        simpa only [snapF, hn] using hf
    | con c => exact .of_succ fun f => ⟨.con c, by simp only [snapF]⟩
    | app as => exact .of_succ fun f => ⟨.app as, by simp only [snapF]⟩

/-! ### Property C45: truncation

Specification vocabulary: the depth of a term, and terms over a finite signature. -/

mutual
/-- nesting depth of a term: variables and constants have depth 0; the functor does not count -/
def depth : Tm → Nat
  | .var _ => 0
  | .con _ => 0
  | .app [] => 1
  | .app (_ :: as) => 1 + depthL as
def depthL : List Tm → Nat
  | [] => 0
  | a :: as => max (depth a) (depthL as)
end

/-- built from constants in `C`, functors and arities in `F`, and variables -/
inductive Over (F : Set (Const × Nat)) (C : Set Const) : Tm → Prop
  | var (n : Nat) : Over F C (.var n)
  | con {c : Const} : c ∈ C → Over F C (.con c)
  | app {g : Const} {as : List Tm} : (g, as.length) ∈ F → (∀ a ∈ as, Over F C a) → Over F C (.app (.con g :: as))

/-- the variables from `k` on have not been allocated yet: they are unbound and `x` does not mention them -/
def FreshFor (h : Heap) (k : Nat) (x : Tm) : Prop :=
  (∀ n, k ≤ n → h n = none) ∧ ∀ t, Resolves h x t → ∀ n ∈ vars t, n < k

theorem truncLF_nil (h : Heap) (f D k : Nat) : truncLF h f D [] k = some ([], k) := rfl

theorem truncLF_cons (h : Heap) (f D : Nat) (a : Tm) (as : List Tm) (k : Nat) : truncLF h f D (a :: as) k = match truncF h f D a k with
    | none => none
    | some (a', k1) => match truncLF h f D as k1 with
      | none => none
      | some (as', k2) => some (a' :: as', k2) := rfl

theorem truncF_succ (h : Heap) (f D : Nat) (x : Tm) (k : Nat) : truncF h f (D + 1) x k = match Heap.snapF h f x with
    | none => none
    | some y => match y with
      | .app (g :: as) => match truncLF h f D as k with
        | none => none
        | some (as', k') => some (.app (g :: as'), k')
      | y => some (y, k) := rfl

/-- what one truncation (of a term or a list) achieves -/
structure Cov (h : Heap) (k k' : Nat) (x t : Tm) : Prop where
  le : k ≤ k'
  vs : ∀ n ∈ vars (t.sub (res h)), n ∈ vars (x.sub (res h)) ∨ (k ≤ n ∧ n < k')
  inst : ∃ σ : Nat → Tm, (∀ n, n < k ∨ k' ≤ n → σ n = .var n) ∧ (t.sub (res h)).sub σ = x.sub (res h)

theorem trunc_cov {h : Heap} (hg : Good h) {f k0 : Nat} (hk0 : ∀ n, k0 ≤ n → h n = none) : ∀ (D : Nat) (x : Tm) (k : Nat) (t : Tm) (k' : Nat),
    k0 ≤ k → (∀ n ∈ vars (x.sub (res h)), n < k0) → truncF h f D x k = some (t, k') → Cov h k k' x t := by
  intro D
  induction D with
  | zero =>
    intro x k t k' hk hx e
    rw [truncF] at e
    cases hs : snapF h f x with
    | none => simp [hs] at e
    | some y =>
      simp only [hs, Option.some.injEq, Prod.mk.injEq] at e
      obtain ⟨rfl, rfl⟩ := e
      have hu : res h k = .var k := res_unbound (hk0 _ hk)
      refine ⟨by omega, fun n hn => .inr ?_, fun n => if n = k then x.sub (res h) else .var n, fun n hn => ?_, ?_⟩
      · simp [hu] at hn; omega
      · beta_reduce; rw [if_neg (by omega)]
      · simp [hu]
  | succ D ih =>
    intro x k t k' hk hx e
    rw [truncF_succ] at e
    cases hs : snapF h f x with
    | none => simp [hs] at e
    | some y =>
      obtain ⟨e1, -⟩ := snap_spec hg hs
      simp only [hs] at e
      rw [← e1] at hx
      suffices H : Cov h k k' y t from ⟨H.le, e1 ▸ H.vs, e1 ▸ H.inst⟩
      clear e1 hs
      have keep : ∀ u : Tm, Cov h k k u u := fun u =>
        ⟨le_refl _, fun n hn => .inl hn, .var, fun _ _ => rfl, sub_id _⟩
      split at e
      · next g as =>
        have hL : ∀ (as : List Tm) (k : Nat) (as' : List Tm) (k' : Nat), k0 ≤ k →
            (∀ n ∈ varsL (as.map (sub (res h))), n < k0) → truncLF h f D as k = some (as', k') →
            Cov h k k' (.app as) (.app as') := by
          intro as
          induction as with
          | nil =>
            intro k as' k' _ _ e; rw [truncLF_nil] at e; simp at e; obtain ⟨rfl, rfl⟩ := e
            exact ⟨le_refl _, by simp, .var, by simp, by simp⟩
          | cons a as ihL =>
            intro k as' k' hk hx e
            rw [truncLF_cons] at e
            simp only [List.map_cons, varsL_cons, Finset.mem_union] at hx
            cases ha : truncF h f D a k with
            | none => simp [ha] at e
            | some p =>
              obtain ⟨a', k1⟩ := p
              simp only [ha] at e
              cases hb : truncLF h f D as k1 with
              | none => simp [hb] at e
              | some p =>
                obtain ⟨as'', k2⟩ := p
                simp only [hb, Option.some.injEq, Prod.mk.injEq] at e
                obtain ⟨rfl, rfl⟩ := e
                have c1 := ih a k a' k1 hk (fun n hn => hx n (.inl hn)) ha
                have c2 := ihL k1 as'' k2 (le_trans hk c1.le) (fun n hn => hx n (.inr hn)) hb
                obtain ⟨σ1, s1, t1⟩ := c1.inst
                obtain ⟨σ2, s2, t2⟩ := c2.inst
                have := c1.le; have := c2.le
                refine ⟨by omega, fun n hn => ?_, fun n => if n < k1 then σ1 n else σ2 n, fun n hn => ?_, ?_⟩
                · simp only [sub_app, List.map_cons, vars_app, varsL_cons, Finset.mem_union] at hn ⊢
                  rcases hn with hn | hn
                  · rcases c1.vs n hn with h1 | h1
                    · exact .inl (.inl h1)
                    · right; omega
                  · rcases c2.vs n (by simpa using hn) with h1 | h1
                    · exact .inl (.inr (by simpa using h1))
                    · right; omega
                · beta_reduce
                  split
                  · exact s1 n (by omega)
                  · exact s2 n (by omega)
                · simp only [sub_app, List.map_cons, Tm.app.injEq, List.cons.injEq] at t2 ⊢
                  constructor
                  · rw [← t1]; apply sub_congr
                    intro n hn
                    rcases c1.vs n hn with h1 | h1
                    · rw [if_pos]; have := hx n (.inl h1); omega
                    · rw [if_pos h1.2]
                  · rw [← t2]
                    apply List.map_congr_left
                    intro u hu
                    apply sub_congr
                    intro n hn
                    rcases c2.vs n (by simpa using mem_varsL.2 ⟨u, hu, hn⟩) with h1 | h1
                    · have := hx n (.inr (by simpa using h1))
                      rw [if_pos (by omega), s1 n (by omega), s2 n (by omega)]
                    · rw [if_neg (by omega)]
        split at e
        · simp at e
        · next as' k'' hl =>
          simp only [Option.some.injEq, Prod.mk.injEq] at e
          obtain ⟨rfl, rfl⟩ := e
          simp only [sub_app, List.map_cons, vars_app, varsL_cons, Finset.mem_union] at hx
          have c := hL as k as' k'' hk (fun n hn => hx n (.inr hn)) hl
          obtain ⟨σ, s1, s2⟩ := c.inst
          refine ⟨c.le, fun n hn => ?_, σ, s1, ?_⟩
          · simp only [sub_app, List.map_cons, vars_app, varsL_cons, Finset.mem_union] at hn ⊢
            rcases hn with hn | hn
            · exact .inl (.inl hn)
            · rcases c.vs n (by simpa using hn) with h1 | h1
              · exact .inl (.inr (by simpa using h1))
              · exact .inr h1
          · simp only [sub_app, List.map_cons, Tm.app.injEq, List.cons.injEq] at s2 ⊢
            refine ⟨?_, s2⟩
            conv_rhs => rw [← sub_id (sub (res h) g)]
            apply sub_congr
            intro n hn
            have := hx n (.inl hn)
            exact s1 n (by omega)
      · simp only [Option.some.injEq, Prod.mk.injEq] at e
        obtain ⟨rfl, rfl⟩ := e
        exact keep _

theorem trunc_total {h : Heap} (hg : Good h) : ∀ (D : Nat) (x : Tm), Evt (fun f => ∀ k, ∃ p, truncF h f D x k = some p) := by
  intro D
  induction D with
  | zero =>
    intro x
    obtain ⟨f1, e1⟩ := hg.deref x
    refine (snap_evt f1 x _ e1).mono fun f hf k => ?_
    obtain ⟨y, hy⟩ := hf
    exact ⟨(.var k, k + 1), by rw [truncF]; simp only [hy]⟩
  | succ D ih =>
    intro x
    obtain ⟨f1, e1⟩ := hg.deref x
    obtain ⟨N, hN⟩ := snap_evt f1 x _ e1
    obtain ⟨y, hy⟩ := hN N (le_refl _)
    have hL : ∀ as : List Tm, Evt (fun f => ∀ k, ∃ p, truncLF h f D as k = some p) := by
      intro as
      induction as with
      | nil => exact .of_all fun f k => ⟨_, by rw [truncLF_nil]⟩
      | cons a as ihL =>
        refine ((ih a).and ihL).mono fun f hf k => ?_
        obtain ⟨p, hp⟩ := hf.1 k
        obtain ⟨q, hq⟩ := hf.2 p.2
        exact ⟨(p.1 :: q.1, q.2), by rw [truncLF_cons]; simp only [hp, hq]⟩
    by_cases hyp : ∃ g as, y = .app (g :: as)
    · obtain ⟨g, as, rfl⟩ := hyp
      obtain ⟨M, hM⟩ := hL as
      refine ⟨max N M, fun f hf k => ?_⟩
      obtain ⟨p, hp⟩ := hM f (by omega) k
      refine ⟨(.app (g :: p.1), p.2), ?_⟩
      rw [truncF_succ]; simp only [snap_mono hy (show N ≤ f by omega), hp]
    · refine ⟨N, fun f hf k => ⟨(y, k), ?_⟩⟩
      rw [truncF_succ]; simp only [snap_mono hy hf]
      split
      · next g as => exact (hyp ⟨g, as, rfl⟩).elim
      · rfl

theorem trunc_depth {h : Heap} (hg : Good h) {f k0 : Nat} (hk0 : ∀ n, k0 ≤ n → h n = none) :
    ∀ (D : Nat) (x : Tm) (k : Nat) (t : Tm) (k' : Nat), k0 ≤ k →
    truncF h f D x k = some (t, k') → k ≤ k' ∧ depth (t.sub (res h)) ≤ D ∧
      ∀ F C, Over F C (x.sub (res h)) → Over F C (t.sub (res h)) := by
  intro D
  induction D with
  | zero =>
    intro x k t k' hk e
    rw [truncF] at e
    cases hs : snapF h f x with
    | none => simp [hs] at e
    | some y =>
      simp only [hs, Option.some.injEq, Prod.mk.injEq] at e
      rw [← e.1, ← e.2, sub_var, res_unbound (hk0 _ hk)]
      exact ⟨by omega, by simp [depth], fun F C _ => .var k⟩
  | succ D ih =>
    intro x k t k' hk e
    have hL : ∀ (as : List Tm) (k : Nat) (as' : List Tm) (k' : Nat), k0 ≤ k →
        truncLF h f D as k = some (as', k') → k ≤ k' ∧ depthL (as'.map (sub (res h))) ≤ D ∧ as'.length = as.length ∧
          ∀ F C, (∀ a ∈ as, Over F C (a.sub (res h))) → ∀ a ∈ as', Over F C (a.sub (res h)) := by
      intro as
      induction as with
      | nil =>
        intro k as' k' _ e; rw [truncLF_nil] at e; simp at e; obtain ⟨rfl, rfl⟩ := e; simp [depthL]
      | cons a as ihL =>
        intro k as' k' hk e
        rw [truncLF_cons] at e
        cases ha : truncF h f D a k with
        | none => simp [ha] at e
        | some p =>
          obtain ⟨a', k1⟩ := p
          simp only [ha] at e
          cases hb : truncLF h f D as k1 with
          | none => simp [hb] at e
          | some p =>
            obtain ⟨as'', k2⟩ := p
            simp only [hb, Option.some.injEq, Prod.mk.injEq] at e
            obtain ⟨rfl, rfl⟩ := e
            simp only [depthL, List.map_cons]
            obtain ⟨a1, a2, a3⟩ := ih a k a' k1 hk ha
            obtain ⟨b1, b2, b3, b4⟩ := ihL k1 as'' k2 (by omega) hb
            refine ⟨by omega, max_le a2 b2, by simp [b3], fun F C ho => ?_⟩
            intro u hu
            rcases List.mem_cons.1 hu with rfl | hu
            · exact a3 F C (ho a (by simp))
            · exact b4 F C (fun v hv => ho v (by simp [hv])) u hu
    rw [truncF_succ] at e
    cases hs : snapF h f x with
    | none => simp [hs] at e
    | some y =>
      obtain ⟨e1, e2⟩ := snap_spec hg hs
      rw [← e1]
      simp only [hs] at e
      split at e
      · next g as =>
        split at e
        · simp at e
        · next as' k'' hl =>
          simp only [Option.some.injEq, Prod.mk.injEq] at e
          obtain ⟨rfl, rfl⟩ := e
          obtain ⟨b1, b2, b3, b4⟩ := hL as k as' k'' hk hl
          simp only [sub_app, List.map_cons, depth]
          refine ⟨b1, by omega, fun F C ho => ?_⟩
          generalize hq : Tm.app (sub (res h) g :: as.map (sub (res h))) = q at ho
          cases ho with
          | var n => simp at hq
          | con _ => simp at hq
          | @app c bs m1 m2 =>
            simp only [Tm.app.injEq, List.cons.injEq] at hq
            obtain ⟨q1, rfl⟩ := hq
            rw [q1]
            refine .app (by simpa [b3] using m1) fun a ha => ?_
            obtain ⟨u, hu, rfl⟩ := List.mem_map.1 ha
            exact b4 F C (fun v hv => m2 _ (List.mem_map.2 ⟨v, hv, rfl⟩)) u hu
      · next hne =>
        simp only [Option.some.injEq, Prod.mk.injEq] at e
        obtain ⟨rfl, rfl⟩ := e
        refine ⟨le_refl _, ?_, fun F C ho => ho⟩
        cases y with
        | var n => rw [sub_var, res_unbound (e2 n rfl)]; simp [depth]
        | con c => simp [depth]
        | app as => cases as with
          | nil => simp [depth]
          | cons g as => exact (hne g as rfl).elim

theorem depthL_le {D : Nat} {as : List Tm} : depthL as ≤ D ↔ ∀ a ∈ as, depth a ≤ D := by
  induction as with
  | nil => simp [depthL]
  | cons a as ih => simp [depthL, ih]

theorem card_varsL {B : Nat} {as : List Tm} (h : ∀ a ∈ as, (vars a).card ≤ B) : (varsL as).card ≤ as.length * B := by
  induction as with
  | nil => simp
  | cons a as ih =>
    simp only [varsL_cons, List.length_cons]
    have h1 := Finset.card_union_le (vars a) (varsL as)
    have h2 := h a (by simp)
    have h3 := ih fun b hb => h b (by simp [hb])
    calc _ ≤ B + as.length * B := by omega
      _ = _ := by ring

/-- few variables in a shallow term over a finite signature -/
theorem card_vars {F : Set (Const × Nat)} {C : Set Const} {A : Nat} (hA : ∀ p ∈ F, p.2 ≤ A) {t : Tm} (ho : Over F C t) :
    ∀ {D : Nat}, depth t ≤ D → (vars t).card ≤ (A + 1) ^ D := by
  induction ho with
  | var n => intro D _; simp; exact Nat.one_le_pow _ _ (by omega)
  | con _ => intro D _; simp
  | @app g as hm ho ih =>
    intro D hd
    cases D with
    | zero => simp [depth] at hd
    | succ D =>
      have hd' : depthL as ≤ D := by simp [depth] at hd; omega
      have := card_varsL (B := (A + 1) ^ D) (as := as) fun a ha => ih a ha (depthL_le.1 hd' a ha)
      have h2 := hA _ hm
      simp only at h2
      simp only [vars_app, varsL_cons, vars_con, Finset.empty_union]
      calc _ ≤ as.length * (A + 1) ^ D := this
        _ ≤ (A + 1) * (A + 1) ^ D := Nat.mul_le_mul_right _ (by omega)
        _ = _ := by ring

theorem finite_lists {S : Set Tm} (hS : S.Finite) (n : Nat) : {l : List Tm | l.length = n ∧ ∀ a ∈ l, a ∈ S}.Finite := by
  induction n with
  | zero => exact (Set.finite_singleton []).subset fun l hl => by simpa using hl.1
  | succ n ih =>
    refine ((hS.prod ih).image fun p => p.1 :: p.2).subset ?_
    rintro l ⟨h1, h2⟩
    cases l with
    | nil => simp at h1
    | cons a l => exact ⟨(a, l), ⟨h2 a (by simp), by simpa using h1, fun b hb => h2 b (by simp [hb])⟩, rfl⟩

theorem finite_terms {F : Set (Const × Nat)} (hF : F.Finite) {C : Set Const} (hC : C.Finite) (M : Nat) : ∀ D : Nat,
    {t | Over F C t ∧ depth t ≤ D ∧ ∀ n ∈ vars t, n < M}.Finite := by
  have base : (Tm.var '' {i | i < M} ∪ Tm.con '' C).Finite := ((Set.finite_lt_nat M).image _).union (hC.image _)
  intro D
  induction D with
  | zero =>
    refine base.subset ?_
    rintro t ⟨ho, hd, hv⟩
    cases ho with
    | var n => exact .inl ⟨n, by simpa using hv, rfl⟩
    | con hc => exact .inr ⟨_, hc, rfl⟩
    | app _ _ => simp [depth] at hd
  | succ D ih =>
    have step : (⋃ p ∈ F, (fun l => Tm.app (.con p.1 :: l)) ''
        {l : List Tm | l.length = p.2 ∧ ∀ a ∈ l, a ∈ {t | Over F C t ∧ depth t ≤ D ∧ ∀ n ∈ vars t, n < M}}).Finite :=
      hF.biUnion fun p _ => (finite_lists ih p.2).image _
    refine (base.union step).subset ?_
    rintro t ⟨ho, hd, hv⟩
    cases ho with
    | var n => exact .inl (.inl ⟨n, by simpa using hv, rfl⟩)
    | con hc => exact .inl (.inr ⟨_, hc, rfl⟩)
    | @app g as hm ho =>
      refine .inr ?_
      simp only [Set.mem_iUnion]
      have hd' : depthL as ≤ D := by simp [depth] at hd; omega
      refine ⟨(g, as.length), hm, as, ⟨rfl, fun a ha => ⟨ho a ha, depthL_le.1 hd' a ha, fun n hn => hv n ?_⟩⟩, rfl⟩
      simp only [vars_app, varsL_cons, vars_con, Finset.empty_union, mem_varsL]
      exact ⟨a, ha, hn⟩

theorem depth_ren (r : Nat → Nat) (t : Tm) : depth (t.sub fun n => .var (r n)) = depth t := by
  have key : ∀ t : Tm, depth (t.sub fun n => .var (r n)) = depth t := by
    intro t
    induction t using ind with
    | hv n => simp [depth]
    | hc c => simp [depth]
    | ha as ih =>
      cases as with
      | nil => simp
      | cons g as =>
        simp only [sub_app, List.map_cons, depth]
        have : ∀ l : List Tm, (∀ t ∈ l, depth (t.sub fun n => .var (r n)) = depth t) →
            depthL (l.map (sub fun n => .var (r n))) = depthL l := by
          intro l
          induction l with
          | nil => intro _; rfl
          | cons a l ihl =>
            intro h; simp only [List.map_cons, depthL]
            rw [h a (by simp), ihl fun t ht => h t (by simp [ht])]
        rw [this as fun t ht => ih t (by simp [ht])]
  exact key t

theorem over_ren {F : Set (Const × Nat)} {C : Set Const} (r : Nat → Nat) {t : Tm} (h : Over F C t) :
    Over F C (t.sub fun n => .var (r n)) := by
  induction h with
  | var n => simpa using Over.var (r n)
  | con hc => simpa using Over.con hc
  | @app g as hm _ ih =>
    simp only [sub_app, List.map_cons, sub_con]
    refine .app (by simpa using hm) fun a ha => ?_
    obtain ⟨u, hu, rfl⟩ := List.mem_map.1 ha
    exact ih u hu

theorem fresh_vars {h : Heap} (hg : Good h) {k : Nat} {x : Tm} (hf : FreshFor h k x) :
    ∀ n ∈ vars (x.sub (res h)), n < k := by
  obtain ⟨f, e⟩ := hg.deref x
  exact hf.2 _ (deref_resolves e)

/-- Truncation always returns (on an acyclic store). -/
theorem C45_terminates {h : Heap} (hac : Acyclic h) (D : Nat) (x : Tm) :
    ∃ N, ∀ f ≥ N, ∀ k, truncF h f D x k ≠ none := by
  obtain ⟨N, hN⟩ := trunc_total (good_iff_acyclic.2 hac) D x
  refine ⟨N, fun f hf k => ?_⟩
  obtain ⟨p, hp⟩ := hN f hf k
  simp [hp]

/-- The truncated term covers the original: instantiating only the newly made variables gives the
original back.  So no instance of the original is lost. -/
theorem C45_covers {h : Heap} (hac : Acyclic h) {f D k k' : Nat} {x t x' t' : Tm} (hk : FreshFor h k x)
    (hx : Resolves h x x') (ht : Resolves h t t') (e : truncF h f D x k = some (t, k')) :
    (∃ σ : Nat → Tm, (∀ n < k, σ n = .var n) ∧ t'.sub σ = x') ∧ (∀ y, InstanceOf y x' → InstanceOf y t') := by
  have hg := good_iff_acyclic.2 hac
  have hx' : x' = x.sub (res h) := by obtain ⟨g, eg⟩ := hx.deref; exact deref_eq_sub eg
  have ht' : t' = t.sub (res h) := by obtain ⟨g, eg⟩ := ht.deref; exact deref_eq_sub eg
  obtain ⟨-, -, σ, s1, s2⟩ := trunc_cov hg hk.1 D x k t k' (le_refl _) (fresh_vars hg hk) e
  rw [← hx', ← ht'] at s2
  refine ⟨⟨σ, fun n hn => s1 n (.inl hn), s2⟩, ?_⟩
  rintro y ⟨τ, rfl⟩
  exact ⟨fun n => (σ n).sub τ, by rw [← s2, sub_sub]⟩

/-- The truncated term is no deeper than the limit. -/
theorem C45_depth {h : Heap} (hac : Acyclic h) {f D k k' : Nat} {x t t' : Tm} (hk : ∀ n, k ≤ n → h n = none)
    (ht : Resolves h t t') (e : truncF h f D x k = some (t, k')) : depth t' ≤ D := by
  have ht' : t' = t.sub (res h) := by obtain ⟨g, eg⟩ := ht.deref; exact deref_eq_sub eg
  rw [ht']
  exact (trunc_depth (good_iff_acyclic.2 hac) hk D x k t k' (le_refl _) e).2.1

theorem trunc_exact {h : Heap} (hg : Good h) {f : Nat} : ∀ (D : Nat) (x : Tm) (k : Nat) (t : Tm) (k' : Nat),
    depth (x.sub (res h)) < D → truncF h f D x k = some (t, k') → k' = k ∧ t.sub (res h) = x.sub (res h) := by
  intro D
  induction D with
  | zero => intro x k t k' hd; omega
  | succ D ih =>
    intro x k t k' hd e
    have hL : ∀ (as : List Tm) (k : Nat) (as' : List Tm) (k' : Nat), (∀ a ∈ as, depth (a.sub (res h)) < D) →
        truncLF h f D as k = some (as', k') → k' = k ∧ as'.map (sub (res h)) = as.map (sub (res h)) := by
      intro as
      induction as with
      | nil => intro k as' k' _ e; rw [truncLF_nil] at e; simp at e; obtain ⟨rfl, rfl⟩ := e; simp
      | cons a as ihL =>
        intro k as' k' hd e
        rw [truncLF_cons] at e
        cases ha : truncF h f D a k with
        | none => simp [ha] at e
        | some p =>
          obtain ⟨a', k1⟩ := p
          simp only [ha] at e
          cases hb : truncLF h f D as k1 with
          | none => simp [hb] at e
          | some p =>
            obtain ⟨as'', k2⟩ := p
            simp only [hb, Option.some.injEq, Prod.mk.injEq] at e
            obtain ⟨rfl, rfl⟩ := e
            obtain ⟨rfl, a2⟩ := ih a k a' k1 (hd a (by simp)) ha
            obtain ⟨rfl, b2⟩ := ihL k1 as'' k2 (fun b hb => hd b (by simp [hb])) hb
            exact ⟨rfl, by simp [a2, b2]⟩
    rw [truncF_succ] at e
    cases hs : snapF h f x with
    | none => simp [hs] at e
    | some y =>
      obtain ⟨e1, e2⟩ := snap_spec hg hs
      rw [← e1] at hd ⊢
      simp only [hs] at e
      split at e
      · next g as =>
        split at e
        · simp at e
        · next as' k'' hl =>
          simp only [Option.some.injEq, Prod.mk.injEq] at e
          obtain ⟨rfl, rfl⟩ := e
          have hd' : depthL (as.map (sub (res h))) < D := by simp [depth] at hd; omega
          have hD : 0 < D := by omega
          obtain ⟨b1, b2⟩ := hL as k as' k'' (fun a ha => by
            have := depthL_le.1 (show depthL (as.map (sub (res h))) ≤ D - 1 by omega) _ (List.mem_map.2 ⟨a, ha, rfl⟩)
            omega) hl
          exact ⟨b1, by simp [b2]⟩
      · simp only [Option.some.injEq, Prod.mk.injEq] at e
        obtain ⟨rfl, rfl⟩ := e
        exact ⟨rfl, rfl⟩

/-- Truncation does nothing to terms that are not too deep: it only loses information where the depth
limit is reached. -/
theorem C45_exact {h : Heap} (hac : Acyclic h) {f D k k' : Nat} {x t x' t' : Tm} (hx : Resolves h x x')
    (ht : Resolves h t t') (e : truncF h f D x k = some (t, k')) (hd : depth x' < D) : t' = x' ∧ k' = k := by
  have hx' : x' = x.sub (res h) := by obtain ⟨g, eg⟩ := hx.deref; exact deref_eq_sub eg
  have ht' : t' = t.sub (res h) := by obtain ⟨g, eg⟩ := ht.deref; exact deref_eq_sub eg
  rw [hx'] at hd
  obtain ⟨h1, h2⟩ := trunc_exact (good_iff_acyclic.2 hac) D x k t k' hd e
  exact ⟨by rw [hx', ht', h2], h1⟩

/-- Over a finite signature there are, up to renaming of variables, only finitely many truncated terms:
one finite set works for all stores, all terms, and all numbers of variables already allocated. -/
theorem C45_finite {F : Set (Const × Nat)} (hF : F.Finite) {C : Set Const} (hC : C.Finite) (D : Nat) :
    ∃ S : Set Tm, S.Finite ∧ ∀ (h : Heap), Acyclic h → ∀ f k k' x t x' t', (∀ n, k ≤ n → h n = none) →
      Resolves h x x' → Over F C x' → truncF h f D x k = some (t, k') → Resolves h t t' → ∃ s ∈ S, Variant t' s := by
  obtain ⟨A, hA⟩ : ∃ A, ∀ p ∈ F, p.2 ≤ A := by
    obtain ⟨A, hA⟩ := (hF.image Prod.snd).bddAbove
    exact ⟨A, fun p hp => hA ⟨p, hp, rfl⟩⟩
  refine ⟨_, finite_terms hF hC ((A + 1) ^ D) D, fun h hac f k k' x t x' t' hk hx ho e ht => ?_⟩
  have hg := good_iff_acyclic.2 hac
  have hx' : x' = x.sub (res h) := by obtain ⟨g, eg⟩ := hx.deref; exact deref_eq_sub eg
  have ht' : t' = t.sub (res h) := by obtain ⟨g, eg⟩ := ht.deref; exact deref_eq_sub eg
  rw [hx'] at ho
  obtain ⟨-, hd, hov⟩ := trunc_depth hg hk D x k t k' (le_refl _) e
  have hov := hov F C ho
  rw [← ht'] at hd hov
  obtain ⟨ws, e1, nd, m, s⟩ := ren_nil id t'
  refine ⟨canonP id t', ⟨?_, ?_, ?_⟩, canonP_variant Function.injective_id t'⟩
  · unfold canonP; rw [s]; exact over_ren _ hov
  · unfold canonP; rw [s, depth_ren]; exact hd
  · unfold canonP; rw [s]
    intro n hn
    rw [mem_vars_ren] at hn
    obtain ⟨j, hj, rfl⟩ := hn
    have hlen : ws.length = (vars t').card := by
      rw [← List.toFinset_card_of_nodup nd]; congr 1; ext a; simp [m]
    have := card_vars hA hov hd
    have hlt : idx ws j < ws.length := List.idxOf_lt_length_iff.2 ((m j).2 hj)
    simp only [id]
    omega

/-! ### Property C46: flattening -/

/-- the term is `op(...)` -/
def IsOp (op : String) (t : Tm) : Prop := ∃ as, t = .app (.con (.str op) :: as)

/-- `L` lists, from left to right, the maximal subterms of `t` below the `op` nodes at its top -/
inductive Leaves (op : String) : Tm → List Tm → Prop
  | leaf {t : Tm} : ¬ IsOp op t → Leaves op t [t]
  | node {as : List Tm} {Ls : List (List Tm)} : as.length = Ls.length → (∀ p ∈ as.zip Ls, Leaves op p.1 p.2) →
      Leaves op (.app (.con (.str op) :: as)) Ls.flatten

theorem leaves_node {op : String} {as : List Tm} {Ls : List (List Tm)} (h : List.Forall₂ (Leaves op) as Ls) :
    Leaves op (.app (.con (.str op) :: as)) Ls.flatten :=
  .node h.length_eq fun p hp => List.forall₂_zip (a := p.1) (b := p.2) h hp

theorem leaves_cases {op : String} {as : List Tm} {L : List Tm} (h : Leaves op (.app (.con (.str op) :: as)) L) :
    ∃ Ls : List (List Tm), L = Ls.flatten ∧ List.Forall₂ (Leaves op) as Ls := by
  generalize ht : Tm.app (.con (.str op) :: as) = t at h
  cases h with
  | leaf hn => exact (hn ⟨as, ht.symm⟩).elim
  | @node bs Ls hl hz =>
    simp only [Tm.app.injEq, List.cons.injEq, true_and] at ht
    subst ht
    exact ⟨Ls, rfl, List.forall₂_iff_zip.2 ⟨hl, fun {a b} hab => hz (a, b) hab⟩⟩

/-- every term has exactly one list of leaves -/
theorem leaves_exists (op : String) (t : Tm) : ∃ L, Leaves op t L := by
  induction t using ind with
  | hv n => exact ⟨_, .leaf (by rintro ⟨_, h⟩; simp at h)⟩
  | hc c => exact ⟨_, .leaf (by rintro ⟨_, h⟩; simp at h)⟩
  | ha as ih =>
    by_cases h : IsOp op (.app as)
    · obtain ⟨bs, hb⟩ := h
      simp only [Tm.app.injEq] at hb
      subst hb
      have : ∀ l : List Tm, (∀ t ∈ l, ∃ L, Leaves op t L) → ∃ Ls, List.Forall₂ (Leaves op) l Ls := by
        intro l
        induction l with
        | nil => intro _; exact ⟨[], .nil⟩
        | cons a l ihl =>
          intro hl
          obtain ⟨L, hL⟩ := hl a (by simp)
          obtain ⟨Ls, hLs⟩ := ihl fun t ht => hl t (by simp [ht])
          exact ⟨L :: Ls, .cons hL hLs⟩
      obtain ⟨Ls, hLs⟩ := this bs fun t ht => ih t (by simp [ht])
      exact ⟨_, leaves_node hLs⟩
    · exact ⟨_, .leaf h⟩

theorem leaves_unique {op : String} : ∀ (t : Tm) (L L' : List Tm), Leaves op t L → Leaves op t L' → L = L' := by
  intro t
  induction t using ind with
  | hv n =>
    intro L L' h h'
    cases h; cases h'; rfl
  | hc c =>
    intro L L' h h'
    cases h; cases h'; rfl
  | ha as ih =>
    intro L L' h h'
    by_cases hop : IsOp op (.app as)
    · obtain ⟨bs, hb⟩ := hop
      simp only [Tm.app.injEq] at hb
      subst hb
      obtain ⟨Ls, rfl, f1⟩ := leaves_cases h
      obtain ⟨Ms, rfl, f2⟩ := leaves_cases h'
      have ih' : ∀ t ∈ bs, ∀ L L', Leaves op t L → Leaves op t L' → L = L' := fun t ht => ih t (by simp [ht])
      clear ih h h'
      congr 1
      induction f1 generalizing Ms with
      | nil => cases f2; rfl
      | cons a1 _ ihf =>
        cases f2 with
        | cons a2 b2 =>
          rw [ih' _ (by simp) _ _ a1 a2, ihf _ b2 fun t ht => ih' t (by simp [ht])]
    · cases h with
      | leaf _ => cases h' with
        | leaf _ => rfl
        | node _ _ => exact (hop ⟨_, rfl⟩).elim
      | node _ _ => exact (hop ⟨_, rfl⟩).elim

/-- equality test against a constant -/
theorem eqF_con {h : Heap} (hg : Good h) {f : Nat} {x : Tm} {c : Const} {b : Bool} (e : eqF h f x (.con c) = some b) :
    b = true ↔ x.sub (res h) = .con c := by
  induction f generalizing x with
  | zero => simp [eqF] at e
  | succ f ih =>
    rw [eqF.eq_def] at e; simp only at e
    cases x with
    | var n =>
      cases hn : h n with
      | some t => simp only [hn] at e; rw [ih e, sub_var, hg.res_bound hn]
      | none =>
        simp only [hn, Option.some.injEq] at e
        subst e
        simp [res_unbound hn]
    | con a => simp only [Option.some.injEq] at e; subst e; simp
    | app as => simp only [Option.some.injEq] at e; subst e; simp

theorem flatten_spec {h : Heap} (hg : Good h) {op : String} : ∀ {f : Nat} {x : Tm} {L : List Tm},
    flattenF h op f x = some L → Leaves op (x.sub (res h)) (L.map (sub (res h))) := by
  intro f
  induction f with
  | zero => intro x L e; rw [flattenF] at e; simp at e
  | succ f ih =>
    intro x L e
    have hL : ∀ (as : List Tm) (L : List Tm), flattenLF h op f as = some L →
        ∃ Ls : List (List Tm), L.map (sub (res h)) = Ls.flatten ∧ List.Forall₂ (Leaves op) (as.map (sub (res h))) Ls := by
      intro as
      induction as with
      | nil => intro L e; rw [flattenLF] at e; simp at e; subst e; exact ⟨[], by simp, .nil⟩
      | cons a as ihL =>
        intro L e
        rw [flattenLF] at e
        cases ha : flattenF h op f a with
        | none => simp [ha] at e
        | some l =>
          simp only [ha] at e
          cases hb : flattenLF h op f as with
          | none => simp [hb] at e
          | some l' =>
            simp only [hb, Option.some.injEq] at e
            subst e
            obtain ⟨Ls, e1, e2⟩ := ihL l' hb
            exact ⟨l.map (sub (res h)) :: Ls, by simp [e1], .cons (ih ha) e2⟩
    rw [flattenF] at e
    cases hs : snapF h f x with
    | none => simp [hs] at e
    | some y =>
      obtain ⟨e1, e2⟩ := snap_spec hg hs
      rw [← e1]
      simp only [hs] at e
      split at e
      · next g as =>
        split at e
        · simp at e
        · next hq =>
          obtain ⟨Ls, l1, l2⟩ := hL as L e
          rw [l1]
          simp only [sub_app, List.map_cons, (eqF_con hg hq).1 rfl]
          exact leaves_node l2
        · next hq =>
          simp only [Option.some.injEq] at e
          subst e
          refine .leaf ?_
          rintro ⟨bs, hb⟩
          simp only [sub_app, List.map_cons, Tm.app.injEq, List.cons.injEq] at hb
          exact absurd ((eqF_con hg hq).2 hb.1) (by simp)
      · next hne =>
        simp only [Option.some.injEq] at e
        subst e
        refine .leaf ?_
        rintro ⟨bs, hb⟩
        cases y with
        | var n => rw [sub_var, res_unbound (e2 n rfl)] at hb; simp at hb
        | con c => simp at hb
        | app as => cases as with
          | nil => simp at hb
          | cons g as => exact hne g as rfl

theorem flatten_total {h : Heap} (hg : Good h) {op : String} : ∀ (m : Nat) (x : Tm), size (x.sub (res h)) ≤ m →
    Evt (fun f => ∃ L, flattenF h op f x = some L) := by
  intro m
  induction m with
  | zero => intro x hx; have := size_pos (x.sub (res h)); omega
  | succ m ih =>
    intro x hx
    obtain ⟨f1, e1⟩ := hg.deref x
    obtain ⟨N, hN⟩ := snap_evt f1 x _ e1
    obtain ⟨y, hy⟩ := hN N (le_refl _)
    obtain ⟨ey, -⟩ := snap_spec hg hy
    have hL : ∀ as : List Tm, sizeL (as.map (sub (res h))) ≤ m → Evt (fun f => ∃ L, flattenLF h op f as = some L) := by
      intro as
      induction as with
      | nil => intro _; exact .of_all fun f => ⟨[], by rw [flattenLF]⟩
      | cons a as ihL =>
        intro hs
        simp only [List.map_cons, sizeL_cons] at hs
        refine ((ih a (by omega)).and (ihL (by omega))).mono fun f hf => ?_
        obtain ⟨l, hl⟩ := hf.1
        obtain ⟨l', hl'⟩ := hf.2
        exact ⟨l ++ l', by rw [flattenLF]; simp only [hl, hl']⟩
    by_cases hyp : ∃ g as, y = .app (g :: as)
    · obtain ⟨g, as, rfl⟩ := hyp
      rw [← ey] at hx
      simp only [sub_app, List.map_cons, size_app, sizeL_cons] at hx
      obtain ⟨M, hM⟩ := hL as (by omega)
      obtain ⟨Q, hQ⟩ := hg.eqF g (.con (.str op))
      refine ⟨max N (max M Q) + 1, fun f hf => ?_⟩
      obtain ⟨f, rfl⟩ : ∃ f', f = f' + 1 := ⟨f - 1, by omega⟩
      rw [flattenF]
      simp only [snap_mono hy (show N ≤ f by omega), hQ f (by omega)]
      obtain ⟨L, hL'⟩ := hM f (by omega)
      cases decide (sub (res h) g = sub (res h) (.con (.str op))) with
      | true => exact ⟨L, hL'⟩
      | false => exact ⟨[.app (g :: as)], rfl⟩
    · refine ⟨N + 1, fun f hf => ⟨[y], ?_⟩⟩
      obtain ⟨f, rfl⟩ : ∃ f', f = f' + 1 := ⟨f - 1, by omega⟩
      rw [flattenF]; simp only [snap_mono hy (show N ≤ f by omega)]
      split
      · next g as => exact (hyp ⟨g, as, rfl⟩).elim
      · rfl

/-- `flatten_op` returns the leaves of the operator tree that its argument denotes, from left to right,
and nothing else; the list is determined by the term. -/
theorem C46_flatten {h : Heap} (hac : Acyclic h) {op : String} {f : Nat} {x x' : Tm} {L L' : List Tm}
    (hx : Resolves h x x') (hL : List.Forall₂ (Resolves h) L L') (e : flattenF h op f x = some L) :
    Leaves op x' L' ∧ ∀ M, Leaves op x' M → M = L' := by
  have hx' : x' = x.sub (res h) := by obtain ⟨g, eg⟩ := hx.deref; exact deref_eq_sub eg
  have hL' : L' = L.map (sub (res h)) := by
    clear e
    induction hL with
    | nil => rfl
    | cons h1 _ ih => obtain ⟨g, eg⟩ := h1.deref; rw [List.map_cons, ← ih, deref_eq_sub eg]
  have := flatten_spec (good_iff_acyclic.2 hac) e
  rw [← hx', ← hL'] at this
  exact ⟨this, fun M hM => leaves_unique x' M L' hM this⟩

theorem C46_terminates {h : Heap} (hac : Acyclic h) (op : String) (x : Tm) :
    ∃ N, ∀ f ≥ N, flattenF h op f x ≠ none := by
  obtain ⟨N, hN⟩ := flatten_total (good_iff_acyclic.2 hac) (op := op) _ x (le_refl _)
  refine ⟨N, fun f hf => ?_⟩
  obtain ⟨L, hL⟩ := hN f hf
  simp [hL]

/-- the binary operator trees with leaves `L` in this order: all ways of putting in the parentheses -/
inductive Assoc (op : String) : List Tm → Tm → Prop
  | leaf {t : Tm} : ¬ IsOp op t → Assoc op [t] t
  | node {L M : List Tm} {a b : Tm} : Assoc op L a → Assoc op M b →
      Assoc op (L ++ M) (.app [.con (.str op), a, b])

/-- All ways of parenthesizing the same sequence of operands flatten to that sequence. -/
theorem C46_assoc {h : Heap} (hac : Acyclic h) {op : String} {f : Nat} {x x' : Tm} {L L' M : List Tm}
    (hx : Resolves h x x') (hL : List.Forall₂ (Resolves h) L L') (hb : Assoc op M x')
    (e : flattenF h op f x = some L) : L' = M := by
  refine ((C46_flatten hac hx hL e).2 M ?_).symm
  clear e hx hL
  induction hb with
  | leaf hn => exact .leaf hn
  | @node L M a b _ _ i1 i2 =>
    have := leaves_node (List.Forall₂.cons i1 (.cons i2 .nil))
    simpa using this

/-- `join_f` over generators without side effects: there is one output for every choice of one result
per operand, in lexicographic order of the choices, and the output is the concatenation of the chosen
results. -/
theorem C46_join {α β : Type} (g : α → List (List β)) (xs : List α) :
    ∃ P : List (List Nat), P.Pairwise (List.Lex (· < ·)) ∧
      (∀ is, is ∈ P ↔ List.Forall₂ (fun i x => i < (g x).length) is xs) ∧
      joinList g xs = P.map fun is => (List.zipWith (fun i x => (g x).getD i []) is xs).flatten := by
  induction xs with
  | nil => exact ⟨[[]], by simp, by simp, by simp [joinList]⟩
  | cons x xs ih =>
    obtain ⟨P, h1, h2, h3⟩ := ih
    refine ⟨(List.range (g x).length).flatMap fun i => P.map (i :: ·), ?_, ?_, ?_⟩
    · rw [List.pairwise_flatMap]
      refine ⟨fun i _ => ?_, ?_⟩
      · rw [List.pairwise_map]
        exact h1.imp fun h => .cons h
      · refine List.pairwise_lt_range.imp fun {i j} hij => ?_
        intro a ha b hb
        obtain ⟨a', _, rfl⟩ := List.mem_map.1 ha
        obtain ⟨b', _, rfl⟩ := List.mem_map.1 hb
        exact .rel hij
    · intro is
      simp only [List.mem_flatMap, List.mem_range, List.mem_map]
      constructor
      · rintro ⟨i, hi, js, hj, rfl⟩
        exact .cons hi ((h2 js).1 hj)
      · rintro h
        cases h with
        | cons hi hj => exact ⟨_, hi, _, (h2 _).2 hj, rfl⟩
    · simp only [joinList, h3, List.map_flatMap, List.map_map]
      have hg : g x = (List.range (g x).length).map fun i => (g x).getD i [] := by
        apply List.ext_getElem
        · simp
        · intro i h1 h2; simp at h1 ⊢; rw [List.getElem?_eq_getElem h1]; simp
      conv_lhs => rw [hg, List.flatMap_map]
      apply List.flatMap_congr
      intro i _
      apply List.map_congr_left
      intro is _
      simp

section Examples
private def a : Tm := .con (.str "a")
private def b : Tm := .con (.str "b")
private def c : Tm := .con (.str "c")
private def op (x y : Tm) : Tm := .app [.con (.str ","), x, y]
private def s (x : Tm) : Tm := .app [.con (.str "s"), x]
private def st : Heap := fun n => if n = 0 then some (op b c) else none

-- a conjunction hidden behind a bound variable is flattened too
example : flattenF st "," 9 (op a (.var 0)) = some [a, b, c] := by simp [flattenF, flattenLF, snapF, eqF, op, a, b, c, st]
example : flattenF (fun _ => none) "," 9 (op (op a b) c) = some [a, b, c] := by simp [flattenF, flattenLF, snapF, eqF, op, a, b, c, st]
example : flattenF (fun _ => none) "," 9 a = some [a] := by simp [flattenF, flattenLF, snapF, eqF, op, a, b, c, st]
example : Assoc "," ([a] ++ ([b] ++ [c])) (op a (op b c)) ∧ Assoc "," (([a] ++ [b]) ++ [c]) (op (op a b) c) := by
  have l : ∀ t : Tm, (∃ q, t = .con q) → ¬ IsOp "," t := by rintro t ⟨q, rfl⟩ ⟨_, h⟩; simp at h
  have ha : Assoc "," [a] a := .leaf (l _ ⟨_, rfl⟩)
  have hb : Assoc "," [b] b := .leaf (l _ ⟨_, rfl⟩)
  have hc : Assoc "," [c] c := .leaf (l _ ⟨_, rfl⟩)
  exact ⟨.node ha (.node hb hc), .node (.node ha hb) hc⟩
example : joinList (fun n => (List.range n).map fun i => [(n, i)]) [2, 3] =
    [[(2, 0), (3, 0)], [(2, 0), (3, 1)], [(2, 0), (3, 2)], [(2, 1), (3, 0)], [(2, 1), (3, 1)], [(2, 1), (3, 2)]] := by
  decide
-- s(s(s(X))) at depth 2 becomes s(s(V)) with a new variable V
example : truncF (fun _ => none) 5 2 (s (s (s (.var 0)))) 7 = some (s (s (.var 7)), 8) := by simp [truncF, truncWith, snapF, s]
example : truncF (fun _ => none) 5 4 (s (s (s (.var 0)))) 7 = some (s (s (s (.var 0))), 7) := by simp [truncF, truncWith, snapF, s]
example : FreshFor (fun _ => none) 7 (s (s (s (.var 0)))) := by
  refine ⟨fun _ _ => rfl, fun t ht n hn => ?_⟩
  obtain ⟨f, e⟩ := ht.deref
  have := deref_mono e (show f ≤ f + 9 by omega)
  have h2 : derefF (fun _ => none) (f + 9) (s (s (s (.var 0)))) = some (s (s (s (.var 0)))) := by rfl
  rw [h2] at this
  simp only [Option.some.injEq] at this
  subst this
  revert n; decide
example : Over {(.str "s", 1)} ∅ (s (s (.var 0))) :=
  .app (by simp) (by simp; exact .app (by simp) (by simp; exact .var 0))
end Examples

end Verif
