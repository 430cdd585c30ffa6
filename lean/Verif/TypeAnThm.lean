/-
Property C61: type analysis covers everything that can be derived.
-/
import Verif.TypeAn
import Verif.RewritesThm
import Verif.Solver2Thm
import Verif.TermToolsThm

set_option linter.unusedSectionVars false
set_option linter.unusedSimpArgs false

namespace Verif
namespace TypeAn
open Tm Heap
open Sem (GTm gsub)
open Rewrites (Ty Res Den)
open Propagate (Solution)
open Solver (noHeap forEach)
open Solver2 (Resp Ok)
open Unfold (Ops isInput unmodelled unsupported)

/-! ### Specification -/

/-- What can be derived by the rules of a weighted program, whatever the weights, if the constraints and inputs in
`I` hold: the instance of a head, if each subgoal holds or is derived. -/
inductive Derives {W : Type} (p : List (WRule W)) (I : Set Tm) : Tm → Prop
  | rule {r : WRule W} (θ : Nat → GTm) : r ∈ p → (∀ t, .sub t ∈ r.body → (gsub θ t).1 ∉ I → Derives p I (gsub θ t).1) →
      Derives p I (gsub θ r.head).1

/-- the ground terms that belong to some type of a chart -/
def Cover (I : Set Tm) (ch : List Ty) : Set Tm := {x | ∃ t ∈ ch, x ∈ Den I t}

/-- The functor is an ordinary one: no operator, not `=`, and no input has it. -/
def User (g : Cfg) (h : Tm) : Prop :=
  ∃ c as, h = .app (.con c :: as) ∧ g.ops c = none ∧ c ≠ .str "=" ∧ ∀ p ∈ g.inputs, hfn p ≠ some c

/-- What the interpretation `I` says about builtins and inputs. -/
structure World (g : Cfg) (I : Set Tm) : Prop where
  heads : ∀ p ∈ g.inputs, ∃ c as, p = .app (.con c :: as)
  eq : ∀ x y, .app [.con (.str "="), x, y] ∈ I → x = y
  ops : ∀ c o x y, g.ops c = some o → .app [.con c, x, y] ∈ I → o x y = true
  con : ∀ c, .con c ∈ I
  free : ∀ x, vars x = ∅ → .app [.con (.str "$free"), x] ∈ I
  input : ∀ c as, .app (.con c :: as) ∈ I → (c = .str "=" ∧ as.length = 2) ∨ (g.ops c ≠ none ∧ as.length = 2) ∨
    ∃ p ∈ g.inputs, ∃ σ, p.sub σ = .app (.con c :: as)

/-- what a look-up needs: the constraints in `I` hold, and the items in `J` are found by a look-up without the chart -/
structure Queries (g : Cfg) (I J : Set Tm) : Prop where
  heads : ∀ p ∈ g.inputs, ∃ c as, p = .app (.con c :: as)
  sub : J ⊆ I
  eq : ∀ x y, .app [.con (.str "="), x, y] ∈ J → x = y
  ops : ∀ c o x y, g.ops c = some o → .app [.con c, x, y] ∈ J → o x y = true
  con : ∀ c, .con c ∈ I
  input : ∀ c as, .app (.con c :: as) ∈ J → (c = .str "=" ∧ as.length = 2) ∨ (g.ops c ≠ none ∧ as.length = 2) ∨
    ∃ p ∈ g.inputs, ∃ σ, p.sub σ = .app (.con c :: as)

theorem World.queries {g : Cfg} {I : Set Tm} (W : World g I) : Queries g I I :=
  ⟨W.heads, subset_rfl, W.eq, W.ops, W.con, W.input⟩

/-- the variables of a type -/
def tvars (t : Ty) : Finset Nat := vars (.app (t.1 :: t.2))

theorem mem_tvars {t : Ty} {n : Nat} : n ∈ tvars t ↔ n ∈ vars t.1 ∨ ∃ c ∈ t.2, n ∈ vars c := by
  simp [tvars, mem_varsL]

/-- What the analysis assumes of `rewrites(·)` and `rewrites.covers`, for types without variables of `L`: nothing
is lost, and the functor of the head stays. -/
structure Sound (g : Cfg) (I : Set Tm) (L : Finset Nat) : Prop where
  sup : ∀ k R hd bd, (∀ n ∈ tvars R, n ∉ L) → g.simp k R = .ty hd bd → Den I R ⊆ Den I (hd, bd)
  none : ∀ k R, (∀ n ∈ tvars R, n ∉ L) → g.simp k R = .none → Den I R = ∅
  fn : ∀ k R hd bd c, g.simp k R = .ty hd bd → hfn R.1 = some c → hfn hd = some c
  cov : ∀ k r s, (∀ n ∈ tvars r, n ∉ L) → (∀ n ∈ tvars s, n ∉ L) → g.cov k r s = some true → Den I s ⊆ Den I r

/-! ### Fresh copies -/

theorem freshT_spec (k : Nat) (t : Ty) : ∃ ρ : Nat → Nat,
    (freshT k t).1 = (t.1.sub (fun n => .var (ρ n)), t.2.map (·.sub fun n => .var (ρ n))) ∧ Set.InjOn ρ (tvars t) ∧
      (∀ n ∈ tvars t, k ≤ ρ n ∧ ρ n < (freshT k t).2) ∧ k ≤ (freshT k t).2 := by
  obtain ⟨ws, ew, nd, m, s⟩ := ren_nil (k + ·) (.app (t.1 :: t.2))
  rw [sub_app, List.map_cons] at s
  have e : freshT k t = ((t.1.sub (fun n => .var (k + idx ws n)), t.2.map (·.sub fun n => .var (k + idx ws n))), k + ws.length) := by
    unfold freshT freshP
    simp only [ew, s]
  rw [e]
  refine ⟨fun n => k + idx ws n, rfl, fun a ha b hb hab => ?_, fun n hn => ⟨Nat.le_add_right _ _, ?_⟩, Nat.le_add_right _ _⟩
  · have : idx ws a = idx ws b := by simpa using hab
    exact idx_inj ((m a).2 (by simpa [tvars] using ha)) this
  · have := List.idxOf_lt_length_of_mem ((m n).2 (by simpa [tvars] using hn))
    simp only [idx]; omega

theorem freshT_vars (k : Nat) (t : Ty) : ∀ n ∈ tvars (freshT k t).1, k ≤ n ∧ n < (freshT k t).2 := by
  obtain ⟨ρ, e, _, b, _⟩ := freshT_spec k t
  intro n hn
  rw [e, mem_tvars] at hn
  simp only [List.mem_map] at hn
  rcases hn with hn | ⟨_, ⟨c, hc, rfl⟩, hn⟩
  · obtain ⟨m, hm, rfl⟩ := mem_vars_ren.1 hn
    exact b m (mem_tvars.2 (.inl hm))
  · obtain ⟨m, hm, rfl⟩ := mem_vars_ren.1 hn
    exact b m (mem_tvars.2 (.inr ⟨c, hc, hm⟩))

theorem freshT_le (k : Nat) (t : Ty) : k ≤ (freshT k t).2 := by
  obtain ⟨_, _, _, _, h⟩ := freshT_spec k t
  exact h

/-- an inverse of `ρ` on `V` -/
theorem exists_inv {V : Finset Nat} {ρ : Nat → Nat} (hi : Set.InjOn ρ V) (σ θ : Nat → GTm) :
    ∃ τ : Nat → GTm, (∀ n ∈ V, τ (ρ n) = σ n) ∧ ∀ m, (∀ n ∈ V, ρ n ≠ m) → τ m = θ m := by
  classical
  refine ⟨fun m => if h : ∃ n ∈ V, ρ n = m then σ h.choose else θ m, fun n hn => ?_, fun m hm => ?_⟩
  · have h : ∃ n' ∈ V, ρ n' = ρ n := ⟨n, hn, rfl⟩
    simp only [h, dite_true]
    rw [hi h.choose_spec.1 hn h.choose_spec.2]
  · have h : ¬ ∃ n ∈ V, ρ n = m := fun ⟨n, hn, e⟩ => hm n hn e
    simp only [h, dite_false]

theorem gsub_eq (θ : Nat → GTm) (t : Tm) : (gsub θ t).1 = t.sub fun n => (θ n).1 := rfl

theorem mem_den {I : Set Tm} {t : Ty} {x : Tm} : x ∈ Den I t ↔ ∃ σ : Nat → GTm, (∀ c ∈ t.2, (gsub σ c).1 ∈ I) ∧ x = (gsub σ t.1).1 := by
  constructor
  · rintro ⟨σ, ⟨hg, hs⟩, rfl⟩
    exact ⟨fun n => ⟨σ n, hg n⟩, hs, rfl⟩
  · rintro ⟨σ, hs, rfl⟩
    exact ⟨fun n => (σ n).1, ⟨fun n => (σ n).2, hs⟩, rfl⟩

/-- the instance of a fresh copy, with the other variables as they were -/
theorem freshT_inst {I : Set Tm} {k : Nat} {t : Ty} {x : Tm} (hx : x ∈ Den I t) (θ : Nat → GTm) :
    ∃ τ : Nat → GTm, (∀ n < k, τ n = θ n) ∧ (∀ c ∈ (freshT k t).1.2, (gsub τ c).1 ∈ I) ∧ (gsub τ (freshT k t).1.1).1 = x := by
  obtain ⟨ρ, e, hi, b, _⟩ := freshT_spec k t
  obtain ⟨σ, h1, rfl⟩ := mem_den.1 hx
  obtain ⟨τ, t1, t2⟩ := exists_inv hi σ θ
  have hsub : ∀ u, vars u ⊆ tvars t → (gsub τ (u.sub fun n => .var (ρ n))).1 = (gsub σ u).1 := by
    intro u hu
    simp only [gsub_eq, sub_sub, sub_var]
    exact sub_congr fun n hn => by rw [t1 n (hu hn)]
  refine ⟨τ, fun n hn => t2 n fun m hm e => ?_, ?_, ?_⟩
  · have := (b m hm).1; omega
  · rw [e]
    intro c hc
    obtain ⟨c', hc', rfl⟩ := List.mem_map.1 hc
    rw [hsub c' fun n hn => mem_tvars.2 (.inr ⟨c', hc', hn⟩)]
    exact h1 c' hc'
  · rw [e]
    exact hsub t.1 fun n hn => mem_tvars.2 (.inl hn)

theorem den_fresh (I : Set Tm) (k : Nat) (t : Ty) : Den I (freshT k t).1 = Den I t := by
  ext x
  constructor
  · intro hx
    obtain ⟨ρ, e, _, _, _⟩ := freshT_spec k t
    obtain ⟨σ, h1, rfl⟩ := mem_den.1 hx
    rw [e] at h1 ⊢
    have hsub : ∀ u : Tm, (gsub σ (u.sub fun n => .var (ρ n))).1 = (gsub (fun n => σ (ρ n)) u).1 := by
      intro u
      simp only [gsub_eq, sub_sub, sub_var]
    refine mem_den.2 ⟨fun n => σ (ρ n), fun c hc => ?_, hsub _⟩
    rw [← hsub]
    exact h1 _ (List.mem_map_of_mem hc)
  · intro hx
    obtain ⟨τ, _, h2, h3⟩ := freshT_inst (k := k) hx fun _ => Sem.g0
    exact mem_den.2 ⟨τ, h2, h3.symm⟩

theorem user_sub {g : Cfg} {h : Tm} (hu : User g h) (σ : Nat → Tm) : User g (h.sub σ) := by
  obtain ⟨c, as, rfl, h1⟩ := hu
  exact ⟨c, as.map (·.sub σ), by simp, h1⟩

theorem user_fresh {g : Cfg} {k : Nat} {t : Ty} (hu : User g t.1) : User g (freshT k t).1.1 := by
  obtain ⟨ρ, e, _⟩ := freshT_spec k t
  rw [e]
  exact user_sub hu _

/-! ### Running with a store -/

/-- the variables that may be bound: those below `k` that are not in `L` -/
def Vs (L : Finset Nat) (k : Nat) : Finset Nat := Finset.range k \ L

theorem Vs_mono {L : Finset Nat} {k k' : Nat} (h : k ≤ k') : Vs L k ⊆ Vs L k' := by
  intro n hn
  simp only [Vs, Finset.mem_sdiff, Finset.mem_range] at hn ⊢
  exact ⟨hn.1.trans_le h, hn.2⟩

theorem ok_mono {L : Finset Nat} {k k' : Nat} (h : k ≤ k') {hp : Heap} (o : Ok hp (Vs L k)) : Ok hp (Vs L k') := by
  have : Vs L k' = Vs L k ∪ (Vs L k' \ Vs L k) := (Finset.union_sdiff_of_subset (Vs_mono h)).symm
  rw [this]
  exact o.mono fun n hn => (Finset.mem_sdiff.1 hn).2

theorem fresh_Vs {L : Finset Nat} {k0 k : Nat} (hL : ∀ n ∈ L, n < k0) (hk : k0 ≤ k) (t : Ty) : tvars (freshT k t).1 ⊆ Vs L (freshT k t).2 := by
  intro n hn
  have := freshT_vars k t n hn
  simp only [Vs, Finset.mem_sdiff, Finset.mem_range]
  exact ⟨this.2, fun h => absurd (hL n h) (by omega)⟩

/-- What is followed of a state: the terms it covers, what it always satisfies, and how it can change. -/
structure Frame (S : Type) where
  Cv : S → Set Tm
  Wf : S → Prop
  Le : S → S → Prop
  refl : ∀ s, Le s s
  trans : ∀ {a b c}, Le a b → Le b c → Le a c
  cv : ∀ {a b}, Le a b → Cv a ⊆ Cv b

section
variable {S : Type} (F : Frame S)

/-- a normal run restores the store and goes on from the state -/
def Steps (k : Nat) (h : Heap) (b : Body (S × Nat)) : Prop :=
  ∀ s h' s', k ≤ s.2 → F.Wf s.1 → b h s = some (h', s', .done) → h' = h ∧ s.2 ≤ s'.2 ∧ F.Wf s'.1 ∧ F.Le s.1 s'.1

/-- after a normal run `z` is covered -/
def Hits (k : Nat) (h : Heap) (b : Body (S × Nat)) (z : Tm) : Prop :=
  ∀ s h' s', k ≤ s.2 → F.Wf s.1 → b h s = some (h', s', .done) → z ∈ F.Cv s'.1

variable {F}

theorem Steps.mono {k k' : Nat} (hk : k ≤ k') {h : Heap} {b : Body (S × Nat)} (hs : Steps F k h b) : Steps F k' h b :=
  fun s h' s' h1 => hs s h' s' (hk.trans h1)

theorem Hits.mono {k k' : Nat} (hk : k ≤ k') {h : Heap} {b : Body (S × Nat)} {z : Tm} (hs : Hits F k h b z) : Hits F k' h b z :=
  fun s h' s' h1 => hs s h' s' (hk.trans h1)

theorem forEach_steps {α : Type} {k : Nat} {h : Heap} {b : α → Body (S × Nat)} :
    ∀ {l : List α}, (∀ a ∈ l, Steps F k h (b a)) → Steps F k h (forEach l b)
  | [], _ => by
    intro s h' s' _ hw e
    simp only [forEach, Option.some.injEq, Prod.mk.injEq] at e
    obtain ⟨rfl, rfl, _⟩ := e
    exact ⟨rfl, le_refl _, hw, F.refl _⟩
  | a :: l, ha => by
    intro s h' s' hk hw e
    simp only [forEach] at e
    split at e
    · cases e
    · rename_i h1 s1 e1
      obtain ⟨rfl, k1, w1, l1⟩ := ha a (by simp) s h1 s1 hk hw e1
      obtain ⟨rfl, k2, w2, l2⟩ := forEach_steps (l := l) (fun a h => ha a (by simp [h])) s1 h' s' (hk.trans k1) w1 e
      exact ⟨rfl, k1.trans k2, w2, F.trans l1 l2⟩
    · rename_i r hne _
      simp only [Option.some.injEq] at e
      subst e
      exact (hne _ _ rfl).elim

theorem forEach_hits {α : Type} {k : Nat} {h : Heap} {b : α → Body (S × Nat)} {z : Tm} :
    ∀ {l : List α}, (∀ a ∈ l, Steps F k h (b a)) → ∀ a ∈ l, Hits F k h (b a) z → Hits F k h (forEach l b) z
  | a0 :: l, ha, a, hm, hz => by
    intro s h' s' hk hw e
    simp only [forEach] at e
    split at e
    · cases e
    · rename_i h1 s1 e1
      obtain ⟨rfl, k1, w1, l1⟩ := ha a0 (by simp) s h1 s1 hk hw e1
      have hl := forEach_steps (l := l) (fun a h => ha a (by simp [h])) s1 h' s' (hk.trans k1) w1 e
      rcases List.mem_cons.1 hm with rfl | hm
      · exact F.cv hl.2.2.2 (hz s _ s1 hk hw e1)
      · exact forEach_hits (l := l) (fun a h => ha a (by simp [h])) a hm hz s1 h' s' (hk.trans k1) w1 e
    · rename_i r hne _
      simp only [Option.some.injEq] at e
      subst e
      exact (hne _ _ rfl).elim

variable {L : Finset Nat}

theorem unify_both {f k : Nat} {h : Heap} (o : Ok h (Vs L k)) {x y : Tm} (hx : vars x ⊆ Vs L k) (hy : vars y ⊆ Vs L k)
    {b : Body (S × Nat)} (hb : ∀ h', Ok h' (Vs L k) → Steps F k h' b) :
    Steps F k h (unifyF f x y b) ∧ ∀ θ z, Resp h θ → gsub θ x = gsub θ y →
      (∀ h', Ok h' (Vs L k) → Resp h' θ → Hits F k h' b z) → Hits F k h (unifyF f x y b) z := by
  obtain ⟨r, hsp, hrun⟩ := unify_run o.good x y
  cases r with
  | none =>
    refine ⟨fun s h' s' hk hw e => ?_, fun θ z hr he => ?_⟩
    · have e2 := hrun _ _ _ _ e
      simp only [run, Option.some.injEq, Prod.mk.injEq] at e2
      obtain ⟨rfl, rfl, _⟩ := e2
      exact ⟨rfl, le_refl _, hw, F.refl _⟩
    · cases hsp with
      | fail hf => exact (hf _ hr (Unfold.sub_ext_eq.1 he)).elim
  | some bs =>
    have o' := Solver2.ok_bindAll o hx hy hsp
    cases hsp with
    | ok _ hg hr hn hd hv =>
    have hu : unbindAll bs (bindAll h bs) = h := unbindAll_bindAll hn fun p hp => by
      rcases Finset.mem_union.1 (hd p hp) with h2 | h2
      · exact o.good.vars_res h2
      · exact o.good.vars_res h2
    refine ⟨fun s h' s' hk hw e => ?_, fun θ z hθ he hz s h' s' hk hw e => ?_⟩
    · have e2 := hrun _ _ _ _ e
      simp only [run] at e2
      split at e2
      · cases e2
      · rename_i h1 s1 sig e3
        simp only [Option.some.injEq, Prod.mk.injEq] at e2
        obtain ⟨rfl, rfl, rfl⟩ := e2
        obtain ⟨rfl, k1, w1, l1⟩ := hb _ o' s h1 s1 hk hw e3
        exact ⟨hu, k1, w1, l1⟩
    · have e2 := hrun _ _ _ _ e
      simp only [run] at e2
      split at e2
      · cases e2
      · rename_i h1 s1 sig e3
        simp only [Option.some.injEq, Prod.mk.injEq] at e2
        obtain ⟨rfl, rfl, rfl⟩ := e2
        exact hz _ o' ((hr _).2 ⟨hθ, Unfold.sub_ext_eq.1 he⟩) s h1 s1 hk hw e3

/-! ### Look-ups -/

/-- the continuation is well behaved, whatever has been bound -/
def ContS (F : Frame S) (L : Finset Nat) (k : Nat) (body : List Tm → Body (S × Nat)) : Prop :=
  ∀ ys k' h', k ≤ k' → Ok h' (Vs L k') → (∀ y ∈ ys, vars y ⊆ Vs L k') → Steps F k' h' (body ys)

/-- if the constraints it is given hold, the continuation makes `z` covered -/
def ContH (F : Frame S) (I : Set Tm) (L : Finset Nat) (k : Nat) (θ : Nat → GTm) (z : Tm) (body : List Tm → Body (S × Nat)) : Prop :=
  ∀ ys k' h' θ', k ≤ k' → Ok h' (Vs L k') → (∀ y ∈ ys, vars y ⊆ Vs L k') → (∀ n < k, θ' n = θ n) → Resp h' θ' →
    (∀ y ∈ ys, (gsub θ' y).1 ∈ I) → Hits F k' h' (body ys) z

theorem ContS.mono {k k' : Nat} (h : k ≤ k') {body : List Tm → Body (S × Nat)} (hc : ContS F L k body) : ContS F L k' body :=
  fun ys k1 h1 hk => hc ys k1 h1 (h.trans hk)

theorem ContH.mono {I : Set Tm} {k k' : Nat} {θ θ' : Nat → GTm} {z : Tm} (h : k ≤ k') (hθ : ∀ n < k, θ' n = θ n)
    {body : List Tm → Body (S × Nat)} (hc : ContH F I L k θ z body) : ContH F I L k' θ' z body :=
  fun ys k1 h1 θ1 hk ho hv ht => hc ys k1 h1 θ1 (h.trans hk) ho hv fun n hn => by rw [ht n (hn.trans_le h), hθ n hn]

theorem vs_lt {k n : Nat} (h : n ∈ Vs L k) : n < k := by
  simp only [Vs, Finset.mem_sdiff, Finset.mem_range] at h
  exact h.1

theorem tryTy_both {f k0 k : Nat} (hL : ∀ n ∈ L, n < k0) (hk0 : k0 ≤ k) {h : Heap} (o : Ok h (Vs L k)) {q : Tm} (hq : vars q ⊆ Vs L k)
    {body : List Tm → Body (S × Nat)} (hb : ContS F L k body) (x : Ty) :
    Steps F k h (tryTy f q body x) ∧ ∀ I θ z, Resp h θ → ContH F I L k θ z body → (gsub θ q).1 ∈ Den I x →
      Hits F k h (tryTy f q body x) z := by
  have key : ∀ k1, k ≤ k1 → Steps F (freshT k1 x).2 h (unifyF f (freshT k1 x).1.1 q (body (freshT k1 x).1.2)) ∧
      ∀ I θ z, Resp h θ → ContH F I L k θ z body → (gsub θ q).1 ∈ Den I x →
        Hits F (freshT k1 x).2 h (unifyF f (freshT k1 x).1.1 q (body (freshT k1 x).1.2)) z := by
    intro k1 hk1
    have hle := freshT_le k1 x
    have hv := fresh_Vs hL (hk0.trans hk1) x
    have hv1 : vars (freshT k1 x).1.1 ⊆ Vs L (freshT k1 x).2 := fun n hn => hv (mem_tvars.2 (.inl hn))
    have hv2 : ∀ y ∈ (freshT k1 x).1.2, vars y ⊆ Vs L (freshT k1 x).2 := fun y hy n hn => hv (mem_tvars.2 (.inr ⟨y, hy, hn⟩))
    obtain ⟨u1, u2⟩ := unify_both (F := F) (f := f) (ok_mono (hk1.trans hle) o) hv1 (hq.trans (Vs_mono (hk1.trans hle)))
      fun h' o' => hb _ _ h' (hk1.trans hle) o' hv2
    refine ⟨u1, fun I θ z hr hc hd => ?_⟩
    obtain ⟨τ, t1, t2, t3⟩ := freshT_inst (k := k1) hd θ
    have hτ : ∀ n ∈ Vs L k, θ n = τ n := fun n hn => (t1 n ((vs_lt hn).trans_le hk1)).symm
    refine u2 τ z (o.resp_congr hτ hr) ?_ fun h' o' hr' => hc _ _ h' τ (hk1.trans hle) o' hv2 (fun n hn => t1 n (hn.trans_le hk1)) hr' t2
    apply Subtype.ext
    rw [t3]
    exact sub_congr fun n hn => by rw [hτ n (hq hn)]
  refine ⟨fun s h' s' hk hw e => ?_, fun I θ z hr hc hd s h' s' hk hw e => ?_⟩
  · obtain ⟨e1, e2, e3, e4⟩ := (key s.2 hk).1 (s.1, (freshT s.2 x).2) h' s' (le_refl _) hw e
    exact ⟨e1, (freshT_le s.2 x).trans e2, e3, e4⟩
  · exact (key s.2 hk).2 I θ z hr hc hd (s.1, (freshT s.2 x).2) h' s' (le_refl _) hw e

theorem isInput_val {h : Heap} (hg : Good h) {f : Nat} {q : Tm} : ∀ {ts : List Tm} {b : Bool}, isInput f q h ts = some b →
    (b = true ↔ ∃ t ∈ ts, ∃ τ, Respects h τ ∧ t.sub τ = q.sub τ)
  | [], b, e => by simp only [isInput, Option.some.injEq] at e; simp [← e]
  | t :: ts, b, e => by
    simp only [isInput] at e
    split at e
    · cases e
    · next e1 =>
      simp only [Option.some.injEq] at e
      have := (C02_unifies (good_iff_acyclic.1 hg) e1).1 rfl
      simp only [← e, true_iff]
      exact ⟨t, by simp, this⟩
    · next e1 =>
      have h1 := (C02_unifies (good_iff_acyclic.1 hg) e1).not.1 (by simp)
      rw [isInput_val hg e]
      constructor
      · rintro ⟨u, hu, h2⟩
        exact ⟨u, by simp [hu], h2⟩
      · rintro ⟨u, hu, h2⟩
        rcases List.mem_cons.1 hu with rfl | hu
        · exact (h1 h2).elim
        · exact ⟨u, hu, h2⟩

/-- an ordinary subgoal -/
def Callable (q : Tm) : Prop := ∃ c as, q = .app (.con c :: as)

theorem lookupVals_steps {g : Cfg} {f k0 k : Nat} (hL : ∀ n ∈ L, n < k0) (hk0 : k0 ≤ k) {h : Heap} (o : Ok h (Vs L k)) {q : Tm}
    (hq : vars q ⊆ Vs L k) (hc : Callable q) {body : List Tm → Body (S × Nat)} (hb : ContS F L k body) (chart : List Ty) :
    Steps F k h (lookupVals g f chart q body) := by
  obtain ⟨c, as, rfl⟩ := hc
  have hall : ∀ l : List Ty, Steps F k h (forEach l (tryTy f (.app (.con c :: as)) body)) := fun l =>
    forEach_steps fun a _ => (tryTy_both hL hk0 o hq hb a).1
  have hself : Steps F k h (body [.app (.con c :: as)]) := hb _ k h (le_refl _) o (by simpa using hq)
  have hone : ∀ d, Steps F k h (body [.con d]) := fun d => hb _ k h (le_refl _) o (by simp)
  intro s h' s' hk hw e
  have hdone : some (h, s, Sig.done) = some (h', s', .done) → h' = h ∧ s.2 ≤ s'.2 ∧ F.Wf s'.1 ∧ F.Le s.1 s'.1 := by
    intro e
    simp only [Option.some.injEq, Prod.mk.injEq, and_true] at e
    obtain ⟨rfl, rfl⟩ := e
    exact ⟨rfl, le_refl _, hw, F.refl _⟩
  unfold lookupVals at e
  cases f with
  | zero => simp [snapF] at e
  | succ f =>
    simp only [snapF] at e
    split at e
    · simp at e
    · split at e
      · cases e
      · exact hself s h' s' hk hw e
      · split at e
        · next x y =>
          split at e
          · split at e
            · exact hone _ s h' s' hk hw e
            · exact hdone e
          · split at e
            · cases e
            · next e1 =>
              obtain ⟨rfl, k1, w1, l1⟩ := hself s _ _ hk hw e1
              obtain ⟨rfl, k2, w2, l2⟩ := hall _ _ _ _ (hk.trans k1) w1 e
              exact ⟨rfl, k1.trans k2, w2, F.trans l1 l2⟩
            · next r hne _ =>
              simp only [Option.some.injEq] at e
              subst e
              exact (hne _ _ rfl).elim
          · cases e
        · split at e
          · next x y _ _ _ =>
            have hx : vars x ⊆ Vs L k := fun n hn => hq (by simp [hn])
            have hy : vars y ⊆ Vs L k := fun n hn => hq (by simp [hn])
            exact (unify_both o hx hy fun h' o' => hb _ k h' (le_refl _) o' (by simp)).1 s h' s' hk hw e
          · exact hall _ s h' s' hk hw e

theorem res_ground {h : Heap} (hg : Good h) {θ : Nat → GTm} (hr : Resp h θ) {f : Nat} {x x' : Tm} (e1 : groundF h f x = some true)
    (e2 : derefF h f x = some x') : x' = (gsub θ x).1 := by
  have h1 := (Solver.ground_val hg e1).1 rfl
  have h2 := deref_eq_sub e2
  rw [h2, gsub_eq, ← hg.sub_res hr, Unfold.sub_closed h1]

theorem lookupVals_hits {g : Cfg} {I J : Set Tm} (W : Queries g I J) (hin : ∀ p ∈ g.inputs, vars p ⊆ L) {f k0 k : Nat} (hL : ∀ n ∈ L, n < k0)
    (hk0 : k0 ≤ k) {h : Heap} (o : Ok h (Vs L k)) {q : Tm}
    (hq : vars q ⊆ Vs L k) (hc : Callable q) {body : List Tm → Body (S × Nat)} (hb : ContS F L k body) {chart : List Ty}
    (hu : ∀ t ∈ chart, User g t.1) {θ : Nat → GTm} {z : Tm} (hr : Resp h θ) (hz : ContH F I L k θ z body)
    (ha : (gsub θ q).1 ∈ J ∨ (gsub θ q).1 ∈ Cover I chart) : Hits F k h (lookupVals g f chart q body) z := by
  obtain ⟨c, as, rfl⟩ := hc
  have hgq : (gsub θ (.app (.con c :: as))).1 = .app (.con c :: as.map (·.sub fun n => (θ n).1)) := by simp [gsub_eq]
  have hfn : ∀ t ∈ chart, (gsub θ (.app (.con c :: as))).1 ∈ Den I t → Verif.hfn t.1 = some c ∧ g.ops c = none ∧ c ≠ .str "=" ∧
      ∀ p ∈ g.inputs, Verif.hfn p ≠ some c := by
    intro t ht hd
    obtain ⟨σ, _, e⟩ := mem_den.1 hd
    obtain ⟨c', as', e', h1, h2, h3⟩ := hu t ht
    rw [hgq, e', gsub_eq, sub_app, List.map_cons, sub_con] at e
    simp only [Tm.app.injEq, List.cons.injEq, Tm.con.injEq] at e
    rw [e', e.1]
    exact ⟨rfl, h1, h2, h3⟩
  have hall : ∀ l : List Ty, Steps F k h (forEach l (tryTy f (.app (.con c :: as)) body)) := fun l =>
    forEach_steps fun a _ => (tryTy_both hL hk0 o hq hb a).1
  have hself : (gsub θ (.app (.con c :: as))).1 ∈ J → Hits F k h (body [.app (.con c :: as)]) z := fun hI =>
    hz _ k h θ (le_refl _) o (by simpa using hq) (fun _ _ => rfl) hr (by simpa using W.sub hI)
  have hone : ∀ d h' , Ok h' (Vs L k) → Resp h' θ → Hits F k h' (body [.con d]) z := fun d h' o' hr' =>
    hz _ k h' θ (le_refl _) o' (by simp) (fun _ _ => rfl) hr' (by simpa [gsub_eq] using W.con d)
  intro s h' s' hk hw e
  unfold lookupVals at e
  cases f with
  | zero => simp [snapF] at e
  | succ f =>
    simp only [snapF] at e
    split at e
    · simp at e
    · split at e
      · cases e
      · next hi =>
        refine hself (ha.resolve_right ?_) s h' s' hk hw e
        rintro ⟨t, ht, hd⟩
        obtain ⟨_, _, _, h3⟩ := hfn t ht hd
        obtain ⟨p, hp, τ, _, h4⟩ := (isInput_val o.good hi).1 rfl
        obtain ⟨c', as', rfl⟩ := W.heads p hp
        simp only [sub_app, List.map_cons, sub_con, Tm.app.injEq, List.cons.injEq, Tm.con.injEq] at h4
        exact h3 _ hp (by rw [h4.1]; rfl)
      · next hi =>
        have hni : ¬ ∃ p ∈ g.inputs, ∃ σ : Nat → Tm, p.sub σ = (gsub θ (.app (.con c :: as))).1 := by
          rintro ⟨p, hp, σ, e1⟩
          refine absurd ((isInput_val o.good hi).2 ⟨p, hp, fun n => if n ∈ vars p then σ n else (θ n).1, ?_, ?_⟩) (by simp)
          · intro n t hn
            have h1 : ∀ m, m ∈ Vs L k → (if m ∈ vars p then σ m else (θ m).1) = (θ m).1 := by
              intro m hm
              rw [if_neg]
              intro hmp
              simp only [Vs, Finset.mem_sdiff] at hm
              exact hm.2 (hin p hp hmp)
            have h2 := hr n t hn
            simp only at h2 ⊢
            rw [h1 n (o.keys n t hn), h2]
            exact sub_congr fun m hm => (h1 m (o.bound hn hm)).symm
          · rw [sub_congr (t := p) (τ := σ) fun n hn => if_pos hn, e1, gsub_eq]
            refine sub_congr fun m hm => ?_
            rw [if_neg]
            intro hmp
            have := hq hm
            simp only [Vs, Finset.mem_sdiff] at this
            exact this.2 (hin p hp hmp)
        split at e
        · next o' x y ho =>
          have hI : (gsub θ (.app [.con c, x, y])).1 ∈ J := by
            refine ha.resolve_right ?_
            rintro ⟨t, ht, hd⟩
            have := (hfn t ht hd).2.1
            rw [this] at ho
            cases ho
          split at e
          · next x' y' g1 g2 d1 d2 =>
            have : o' x' y' = true := by
              refine W.ops c o' x' y' ho ?_
              rw [res_ground o.good hr g1 d1, res_ground o.good hr g2 d2]
              simpa [gsub_eq] using hI
            rw [if_pos this] at e
            exact hone _ h o hr s h' s' hk hw e
          · split at e
            · cases e
            · next e1 =>
              have hst := hb [.app [.con c, x, y]] k h (le_refl _) o (by simpa using hq) s _ _ hk hw e1
              obtain ⟨rfl, k1, w1, l1⟩ := hst
              exact F.cv (hall _ _ _ _ (hk.trans k1) w1 e).2.2.2 (hself hI s _ _ hk hw e1)
            · next r hne _ =>
              simp only [Option.some.injEq] at e
              subst e
              exact (hne _ _ rfl).elim
          · cases e
        · next as _ _ hne =>
          have hcv : ¬ (c = .str "=" ∧ as.length = 2) → (gsub θ (.app (.con c :: as))).1 ∈ Cover I chart := by
            intro hneq
            refine ha.resolve_left fun hI => ?_
            rw [hgq] at hI
            rcases W.input c _ hI with h1 | h1 | h1
            · exact hneq (by simpa using h1)
            · obtain ⟨x, y, rfl⟩ : ∃ x y, as = [x, y] := by
                have := h1.2
                rw [List.length_map] at this
                exact List.length_eq_two.1 this
              cases ho : g.ops c with
              | none => exact h1.1 ho
              | some o' => exact hne o' x y ho rfl
            · exact hni (by rw [hgq]; exact h1)
          split at e
          · next x y _ =>
            have hx : vars x ⊆ Vs L k := fun n hn => hq (by simp [hn])
            have hy : vars y ⊆ Vs L k := fun n hn => hq (by simp [hn])
            have hI : (gsub θ (.app [.con (.str "="), x, y])).1 ∈ J := by
              refine ha.resolve_right ?_
              rintro ⟨t, ht, hd⟩
              exact (hfn t ht hd).2.2.1 rfl
            refine (unify_both o hx hy fun h' o' => hb _ k h' (le_refl _) o' (by simp)).2 θ z hr ?_
              (fun h' o' hr' => hone _ h' o' hr') s h' s' hk hw e
            exact Subtype.ext (W.eq _ _ (by simpa [gsub_eq] using hI))
          · next hneq =>
            obtain ⟨t, ht, hd⟩ := hcv (by
              rintro ⟨rfl, h2⟩
              obtain ⟨x, y, rfl⟩ := List.length_eq_two.1 h2
              exact hneq x y rfl rfl)
            exact forEach_hits (fun a _ => (tryTy_both hL hk0 o hq hb a).1) t (List.mem_filter.2 ⟨ht, by simp [(hfn t ht hd).1]⟩)
              ((tryTy_both hL hk0 o hq hb t).2 I θ z hr hz hd) s h' s' hk hw e

theorem join_steps {g : Cfg} {f k0 : Nat} (hL : ∀ n ∈ L, n < k0) (chart : List Ty) : ∀ {qs : List Tm} {k : Nat} {h : Heap} {body : List Tm → Body (S × Nat)},
    k0 ≤ k → Ok h (Vs L k) → (∀ q ∈ qs, vars q ⊆ Vs L k ∧ Callable q) → ContS F L k body → Steps F k h (join g f chart qs body)
  | [], k, h, body, _, o, _, hb => hb [] k h (le_refl _) o (by simp)
  | q :: qs, k, h, body, hk0, o, hq, hb => by
    refine lookupVals_steps hL hk0 o (hq q (by simp)).1 (hq q (by simp)).2 (fun ds k' h' hk o' hd => ?_) chart
    refine join_steps hL chart (hk0.trans hk) o' (fun q' hq' => ?_) fun es k2 h2 hk2 o2 he => hb _ k2 h2 (hk.trans hk2) o2 ?_
    · have := hq q' (by simp [hq'])
      exact ⟨this.1.trans (Vs_mono hk), this.2⟩
    · intro y hy
      rcases List.mem_append.1 hy with hy | hy
      · exact (hd y hy).trans (Vs_mono hk2)
      · exact he y hy

theorem gsub_vs {k : Nat} {θ θ' : Nat → GTm} (h : ∀ n < k, θ' n = θ n) {t : Tm} (ht : vars t ⊆ Vs L k) : gsub θ' t = gsub θ t := by
  apply Subtype.ext
  exact sub_congr fun n hn => by rw [h n (vs_lt (ht hn))]

theorem join_hits {g : Cfg} {I J : Set Tm} (W : Queries g I J) (hin : ∀ p ∈ g.inputs, vars p ⊆ L) {f k0 : Nat} (hL : ∀ n ∈ L, n < k0) {chart : List Ty}
    (hu : ∀ t ∈ chart, User g t.1) : ∀ {qs : List Tm} {k : Nat} {h : Heap} {body : List Tm → Body (S × Nat)} {θ : Nat → GTm} {z : Tm},
    k0 ≤ k → Ok h (Vs L k) → (∀ q ∈ qs, vars q ⊆ Vs L k ∧ Callable q) → ContS F L k body → Resp h θ → ContH F I L k θ z body →
    (∀ q ∈ qs, (gsub θ q).1 ∈ J ∨ (gsub θ q).1 ∈ Cover I chart) → Hits F k h (join g f chart qs body) z
  | [], k, h, body, θ, z, _, o, _, hb, hr, hz, _ => hz [] k h θ (le_refl _) o (by simp) (fun _ _ => rfl) hr (by simp)
  | q :: qs, k, h, body, θ, z, hk0, o, hq, hb, hr, hz, ha => by
    have hq' : ∀ k', k ≤ k' → ∀ q' ∈ qs, vars q' ⊆ Vs L k' ∧ Callable q' := fun k' hk q' hq' => by
      have := hq q' (by simp [hq'])
      exact ⟨this.1.trans (Vs_mono hk), this.2⟩
    have happ : ∀ {ds es : List Tm} {k1 k2 : Nat}, k1 ≤ k2 → (∀ y ∈ ds, vars y ⊆ Vs L k1) → (∀ y ∈ es, vars y ⊆ Vs L k2) →
        ∀ y ∈ ds ++ es, vars y ⊆ Vs L k2 := by
      intro ds es k1 k2 hk hd he y hy
      rcases List.mem_append.1 hy with hy | hy
      · exact (hd y hy).trans (Vs_mono hk)
      · exact he y hy
    refine lookupVals_hits W hin hL hk0 o (hq q (by simp)).1 (hq q (by simp)).2 (fun ds k' h' hk o' hd => ?_) hu hr
      (fun ds k' h' θ' hk o' hd hθ hr' hI => ?_) (ha q (by simp))
    · exact join_steps hL chart (hk0.trans hk) o' (hq' k' hk) fun es k2 h2 hk2 o2 he => hb _ k2 h2 (hk.trans hk2) o2 (happ hk2 hd he)
    · refine join_hits W hin hL hu (hk0.trans hk) o' (hq' k' hk)
        (fun es k2 h2 hk2 o2 he => hb _ k2 h2 (hk.trans hk2) o2 (happ hk2 hd he)) hr'
        (fun es k2 h2 θ2 hk2 o2 he hθ2 hr2 hI2 => ?_) fun q' hm => ?_
      · refine hz _ k2 h2 θ2 (hk.trans hk2) o2 (happ hk2 hd he) (fun n hn => by rw [hθ2 n (hn.trans_le hk), hθ n hn]) hr2 fun y hy => ?_
        rcases List.mem_append.1 hy with hy | hy
        · rw [gsub_vs hθ2 (hd y hy)]
          exact hI y hy
        · exact hI2 y hy
      · rw [gsub_vs hθ (hq q' (by simp [hm])).1]
        exact ha q' (by simp [hm])

end

/-! ### Relaxation and the set of most general types -/

/-- a type that can be stored: no variables of `L`, an ordinary head -/
def Fine (g : Cfg) (L : Finset Nat) (t : Ty) : Prop := (∀ n ∈ tvars t, n ∉ L) ∧ User g t.1

section
variable {g : Cfg} {I : Set Tm} {L : Finset Nat}

theorem fine_fresh {k0 k : Nat} (hL : ∀ n ∈ L, n < k0) (hk : k0 ≤ k) {t : Ty} (hu : User g t.1) : Fine g L (freshT k t).1 :=
  ⟨fun n hn h => absurd (hL n h) (by have := (freshT_vars k t n hn).1; omega), user_fresh hu⟩

theorem lt_above {t : Ty} {n : Nat} (h : n ∈ tvars t) : n < above t := by
  have := Finset.le_sup (f := (· + 1)) (s := vars (.app (t.1 :: t.2))) h
  unfold above
  omega

theorem gsub_gsub (σ : Nat → GTm) (ρ : Nat → Tm) (t : Tm) : (gsub (fun n => gsub σ (ρ n)) t).1 = (gsub σ (t.sub ρ)).1 := by
  simp only [gsub_eq, sub_sub]

theorem relax_spec (hs : Sound g I L) (hD : 0 < g.D) {f k : Nat} {R : Ty} (hv : ∀ n ∈ tvars R, n ∉ L) (hu : User g R.1) {o : Option (Ty × Nat)}
    (e : relax g f k R = some o) :
    (∀ z ∈ Den I R, ∃ x k', o = some (x, k') ∧ z ∈ Den I x) ∧ ∀ x k', o = some (x, k') → k ≤ k' ∧ User g x.1 := by
  unfold relax at e
  split at e
  · cases e
  · cases e
  · next h1 =>
    simp only [Option.some.injEq] at e
    subst e
    refine ⟨fun z hz => ?_, by simp⟩
    rw [hs.none k R hv h1] at hz
    exact hz.elim
  · next hd bd h1 =>
    split at e
    · cases e
    · next h' k' h2 =>
      simp only [Option.some.injEq] at e
      subst e
      obtain ⟨le, _, ρ, r1, r2⟩ := trunc_cov (Solver.good_noHeap) (fun n _ => rfl) g.D hd _ h' k' (le_refl _) (by
        rw [Unfold.res_noHeap, sub_id]
        intro n hn
        exact (lt_above (t := (hd, bd)) (mem_tvars.2 (.inl hn))).trans_le (le_max_right _ _)) h2
      rw [Unfold.res_noHeap, sub_id, sub_id] at r2
      refine ⟨fun z hz => ⟨_, _, rfl, ?_⟩, ?_⟩
      · obtain ⟨σ, s1, rfl⟩ := mem_den.1 (hs.sup k R hd bd hv h1 hz)
        refine mem_den.2 ⟨fun n => gsub σ (ρ n), fun c hc => ?_, ?_⟩
        · have hc := (List.mem_filter.1 (List.mem_dedup.1 hc)).1
          rw [gsub_gsub, sub_congr (t := c) (τ := Tm.var) fun n hn => r1 n (.inl ?_), sub_id]
          · exact s1 c hc
          · exact (lt_above (t := (hd, bd)) (mem_tvars.2 (.inr ⟨c, hc, hn⟩))).trans_le (le_max_right _ _)
        · rw [gsub_gsub, r2]
      · intro x k1 ex
        simp only [Option.some.injEq, Prod.mk.injEq] at ex
        obtain ⟨rfl, rfl⟩ := ex
        refine ⟨(le_max_left _ _).trans le, ?_⟩
        obtain ⟨c, as, e1, u1⟩ := hu
        have := hs.fn k R hd bd c h1 (by rw [e1]; rfl)
        have e2 : ∃ as', hd = .app (.con c :: as') := by
          unfold hfn at this
          split at this
          · simp only [Option.some.injEq] at this
            exact ⟨_, by rw [this]⟩
          · cases this
        obtain ⟨as', rfl⟩ := e2
        obtain ⟨D, hD⟩ := Nat.exists_eq_succ_of_ne_zero hD.ne'
        rw [hD, truncF] at h2
        cases f with
        | zero => simp [snapF] at h2
        | succ f =>
          simp only [snapF] at h2
          split at h2
          · cases h2
          · simp only [Option.some.injEq, Prod.mk.injEq] at h2
            exact ⟨c, _, h2.1.symm, u1⟩

theorem scan_spec (hs : Sound g I L) {k : Nat} {r : Ty} (hr : ∀ n ∈ tvars r, n ∉ L) : ∀ {xs : List Ty} {o : Option (List Ty)},
    (∀ t ∈ xs, ∀ n ∈ tvars t, n ∉ L) → scan g k r xs = some o →
    (o = none → Den I r ⊆ Cover I xs) ∧ ∀ ys, o = some ys → (∀ t ∈ ys, t ∈ xs) ∧ ∀ t ∈ xs, t ∈ ys ∨ Den I t ⊆ Den I r
  | [], o, _, e => by
    simp only [scan, Option.some.injEq] at e
    subst e
    simp
  | s :: xs, o, hx, e => by
    simp only [scan] at e
    split at e
    · cases e
    · next h1 =>
      simp only [Option.some.injEq] at e
      subst e
      exact ⟨fun _ z hz => ⟨s, by simp, hs.cov k s r (hx s (by simp)) hr h1 hz⟩, by simp⟩
    · split at e
      · cases e
      · next b h2 =>
        split at e
        · cases e
        · next h3 =>
          simp only [Option.some.injEq] at e
          subst e
          have := (scan_spec hs hr (fun t ht => hx t (by simp [ht])) h3).1 rfl
          refine ⟨fun _ z hz => ?_, by simp⟩
          obtain ⟨t, ht, hd⟩ := this hz
          exact ⟨t, by simp [ht], hd⟩
        · next zs h3 =>
          simp only [Option.some.injEq] at e
          subst e
          obtain ⟨a1, a2⟩ := (scan_spec hs hr (fun t ht => hx t (by simp [ht])) h3).2 zs rfl
          refine ⟨by simp, fun ys ey => ?_⟩
          simp only [Option.some.injEq] at ey
          subst ey
          cases b with
          | true =>
            simp only [if_true]
            refine ⟨fun t ht => by simp [a1 t ht], fun t ht => ?_⟩
            rcases List.mem_cons.1 ht with rfl | ht
            · exact .inr (hs.cov k r t hr (hx t (by simp)) h2)
            · exact a2 t ht
          | false =>
            simp only [Bool.false_eq_true, if_false]
            refine ⟨fun t ht => ?_, fun t ht => ?_⟩
            · rcases List.mem_cons.1 ht with rfl | ht
              · simp
              · simp [a1 t ht]
            · rcases List.mem_cons.1 ht with rfl | ht
              · simp
              · rcases a2 t ht with h | h
                · simp [h]
                · exact .inr h

theorem add_spec (hs : Sound g I L) {k0 k : Nat} (hL : ∀ n ∈ L, n < k0) (hk : k0 ≤ k) {xs : List Ty} (hx : ∀ t ∈ xs, Fine g L t) {r : Ty}
    (hu : User g r.1) {ys : List Ty} {b : Bool} {k' : Nat} (e : add g k xs r = some (ys, b, k')) :
    k ≤ k' ∧ (∀ t ∈ ys, Fine g L t) ∧ Cover I xs ⊆ Cover I ys ∧ Den I r ⊆ Cover I ys ∧ (b = true → ys = xs) ∧
      ∀ t ∈ ys, t ∈ xs ∨ Den I t = Den I r := by
  have hf := fine_fresh hL hk hu
  unfold add at e
  simp only at e
  split at e
  · cases e
  · next h1 =>
    simp only [Option.some.injEq, Prod.mk.injEq] at e
    obtain ⟨rfl, rfl, rfl⟩ := e
    have := (scan_spec hs hf.1 (fun t ht => (hx t ht).1) h1).1 rfl
    rw [den_fresh] at this
    exact ⟨freshT_le _ _, hx, subset_rfl, this, fun _ => rfl, fun t ht => .inl ht⟩
  · next zs h1 =>
    simp only [Option.some.injEq, Prod.mk.injEq] at e
    obtain ⟨rfl, rfl, rfl⟩ := e
    obtain ⟨a1, a2⟩ := (scan_spec hs hf.1 (fun t ht => (hx t ht).1) h1).2 zs rfl
    have hnew : Den I r ⊆ Cover I (zs ++ [(freshT k r).1]) := fun z hz => ⟨(freshT k r).1, by simp, by rw [den_fresh]; exact hz⟩
    refine ⟨freshT_le _ _, fun t ht => ?_, fun z hz => ?_, hnew, by simp, fun t ht => ?_⟩
    · rcases List.mem_append.1 ht with ht | ht
      · exact hx t (a1 t ht)
      · rw [List.mem_singleton.1 ht]; exact hf
    · obtain ⟨t, ht, hd⟩ := hz
      rcases a2 t ht with h | h
      · exact ⟨t, by simp [h], hd⟩
      · refine hnew ?_
        rw [den_fresh] at h
        exact h hd
    · rcases List.mem_append.1 ht with ht | ht
      · exact .inl (a1 t ht)
      · rw [List.mem_singleton.1 ht, den_fresh]; exact .inr rfl

theorem addAll_spec (hs : Sound g I L) {k0 : Nat} (hL : ∀ n ∈ L, n < k0) : ∀ {rs acc : List Ty} {k k' : Nat} {ys : List Ty}, k0 ≤ k → (∀ t ∈ acc, Fine g L t) →
    (∀ r ∈ rs, User g r.1) → addAll g k acc rs = some (ys, k') →
    k ≤ k' ∧ (∀ t ∈ ys, Fine g L t) ∧ Cover I acc ⊆ Cover I ys ∧ Cover I rs ⊆ Cover I ys ∧
      ∀ t ∈ ys, t ∈ acc ∨ ∃ r ∈ rs, Den I t = Den I r
  | [], acc, k, k', ys, hk, ha, hu, e => by
    simp only [addAll, Option.some.injEq, Prod.mk.injEq] at e
    obtain ⟨rfl, rfl⟩ := e
    exact ⟨le_refl _, ha, subset_rfl, by rintro z ⟨t, ht, _⟩; simp at ht, fun t ht => .inl ht⟩
  | r :: rs, acc, k, k', ys, hk, ha, hu, e => by
    simp only [addAll] at e
    split at e
    · cases e
    · next h1 =>
      obtain ⟨a1, a2, a3, a4, _, a6⟩ := add_spec hs hL hk ha (hu r (by simp)) h1
      obtain ⟨b1, b2, b3, b4, b5⟩ := addAll_spec hs hL (hk.trans a1) a2 (fun r hr => hu r (by simp [hr])) e
      refine ⟨a1.trans b1, b2, a3.trans b3, ?_, fun t ht => ?_⟩
      · rintro z ⟨t, ht, hz⟩
        rcases List.mem_cons.1 ht with rfl | ht
        · exact b3 (a4 hz)
        · exact b4 ⟨t, ht, hz⟩
      · rcases b5 t ht with h | ⟨q, hq, h⟩
        · rcases a6 t h with h | h
          · exact .inl h
          · exact .inr ⟨r, by simp, h⟩
        · exact .inr ⟨q, by simp [hq], h⟩

theorem relaxAll_spec (hs : Sound g I L) (hD : 0 < g.D) {f : Nat} : ∀ {Rs : List Ty} {k k' : Nat} {xs : List Ty}, (∀ R ∈ Rs, Fine g L R) →
    relaxAll g f k Rs = some (xs, k') → k ≤ k' ∧ (∀ x ∈ xs, User g x.1) ∧ Cover I Rs ⊆ Cover I xs
  | [], k, k', xs, _, e => by
    simp only [relaxAll, Option.some.injEq, Prod.mk.injEq] at e
    obtain ⟨rfl, rfl⟩ := e
    exact ⟨le_refl _, by simp, subset_rfl⟩
  | R :: Rs, k, k', xs, hR, e => by
    simp only [relaxAll] at e
    split at e
    · cases e
    · next h1 =>
      obtain ⟨r1, _⟩ := relax_spec hs hD (hR R (by simp)).1 (hR R (by simp)).2 h1
      obtain ⟨a1, a2, a3⟩ := relaxAll_spec hs hD (fun R hr => hR R (by simp [hr])) e
      refine ⟨a1, a2, ?_⟩
      rintro z ⟨t, ht, hz⟩
      rcases List.mem_cons.1 ht with rfl | ht
      · obtain ⟨_, _, h, _⟩ := r1 z hz
        cases h
      · exact a3 ⟨t, ht, hz⟩
    · next x k1 h1 =>
      obtain ⟨r1, r2⟩ := relax_spec hs hD (hR R (by simp)).1 (hR R (by simp)).2 h1
      obtain ⟨k1', u1⟩ := r2 x k1 rfl
      split at e
      · cases e
      · next ys k2 h2 =>
        simp only [Option.some.injEq, Prod.mk.injEq] at e
        obtain ⟨rfl, rfl⟩ := e
        obtain ⟨a1, a2, a3⟩ := relaxAll_spec hs hD (fun R hr => hR R (by simp [hr])) h2
        refine ⟨k1'.trans a1, fun y hy => ?_, ?_⟩
        · rcases List.mem_cons.1 hy with rfl | hy
          · exact u1
          · exact a2 y hy
        · rintro z ⟨t, ht, hz⟩
          rcases List.mem_cons.1 ht with rfl | ht
          · obtain ⟨x', k', h, hd⟩ := r1 z hz
            simp only [Option.some.injEq, Prod.mk.injEq] at h
            exact ⟨x, by simp, h.1 ▸ hd⟩
          · obtain ⟨y, hy, hd⟩ := a3 ⟨t, ht, hz⟩
            exact ⟨y, by simp [hy], hd⟩

/-! ### The loops -/

theorem derefT_eq {h : Heap} {f : Nat} {R R' : Ty} (e : derefT h f R = some R') : R' = (R.1.sub (res h), R.2.map (·.sub (res h))) := by
  unfold derefT at e
  split at e
  · next hd b h1 h2 =>
    simp only [Option.some.injEq] at e
    subst e
    rw [allSome_eq_some] at h2
    rw [deref_eq_sub h1]
    congr 1
    have hl : R.2.length = b.length := by simpa using congrArg List.length h2
    apply List.ext_getElem (by simp [hl])
    intro i h3 h4
    have h5 : (R.2.map (derefF h f))[i]? = (b.map some)[i]? := by rw [h2]
    have h6 : i < R.2.length := by omega
    simp only [List.getElem?_map, List.getElem?_eq_getElem h6, List.getElem?_eq_getElem h3, Option.map_some, Option.some.injEq] at h5
    rw [List.getElem_map]
    exact deref_eq_sub h5
  · cases e

theorem derefT_den {h : Heap} (hg : Good h) {f : Nat} {R R' : Ty} (e : derefT h f R = some R') {θ : Nat → GTm} (hr : Resp h θ)
    (hI : ∀ c ∈ R.2, (gsub θ c).1 ∈ I) : (gsub θ R.1).1 ∈ Den I R' := by
  rw [derefT_eq e]
  have hsub : ∀ t, (gsub θ (t.sub (res h))).1 = (gsub θ t).1 := fun t => hg.sub_res hr t
  refine mem_den.2 ⟨θ, fun c hc => ?_, (hsub _).symm⟩
  obtain ⟨c, hc', rfl⟩ := List.mem_map.1 hc
  rw [hsub]
  exact hI c hc'

theorem derefT_vars {h : Heap} {k : Nat} (o : Ok h (Vs L k)) {f : Nat} {R R' : Ty} (e : derefT h f R = some R') (hv : tvars R ⊆ Vs L k) :
    tvars R' ⊆ Vs L k := by
  rw [derefT_eq e]
  intro n hn
  rw [mem_tvars] at hn
  rcases hn with hn | ⟨c, hc, hn⟩
  · exact o.sub (fun m hm => hv (mem_tvars.2 (.inl hm))) hn
  · obtain ⟨c, hc', rfl⟩ := List.mem_map.1 hc
    exact o.sub (fun m hm => hv (mem_tvars.2 (.inr ⟨c, hc', hm⟩))) hn

theorem derefT_user {h : Heap} {f : Nat} {R R' : Ty} (e : derefT h f R = some R') (hu : User g R.1) : User g R'.1 := by
  rw [derefT_eq e]
  exact user_sub hu _

theorem vs_notin {k n : Nat} (h : n ∈ Vs L k) : n ∉ L := by
  simp only [Vs, Finset.mem_sdiff] at h
  exact h.2

/-- what is followed of a list of rules -/
def frameL (g : Cfg) (I : Set Tm) (L : Finset Nat) : Frame (List Ty) where
  Cv := Cover I
  Wf s := ∀ t ∈ s, Fine g L t
  Le a b := Cover I a ⊆ Cover I b
  refl _ := subset_rfl
  trans h1 h2 := h1.trans h2
  cv h := h

theorem collect_both {k0 k : Nat} (hL : ∀ n ∈ L, n < k0) (hk0 : k0 ≤ k) {h : Heap} (o : Ok h (Vs L k)) {f : Nat} {keep : Tm → Bool} {R : Ty}
    (hv : tvars R ⊆ Vs L k) (hu : User g R.1) : Steps (frameL g I L) k h (collect f keep R) ∧
      ∀ θ, Resp h θ → (∀ c ∈ R.2, (gsub θ c).1 ∈ I) → Hits (frameL g I L) k h (collect f keep R) (gsub θ R.1).1 := by
  constructor
  · intro s h' s' hk hw e
    unfold collect at e
    split at e
    · cases e
    · next R' e1 =>
      simp only [Option.some.injEq, Prod.mk.injEq, and_true] at e
      obtain ⟨rfl, rfl⟩ := e
      refine ⟨rfl, freshT_le _ _, fun t ht => ?_, fun z ⟨t, ht, hz⟩ => ⟨t, by simp [ht], hz⟩⟩
      rcases List.mem_append.1 ht with ht | ht
      · exact hw t ht
      · rw [List.mem_singleton.1 ht]
        exact fine_fresh (t := (R'.1, _)) hL (hk0.trans hk) (show User g R'.1 from derefT_user e1 hu)
  · intro θ hr hI s h' s' hk hw e
    unfold collect at e
    split at e
    · cases e
    · next R' e1 =>
      simp only [Option.some.injEq, Prod.mk.injEq, and_true] at e
      obtain ⟨rfl, rfl⟩ := e
      obtain ⟨σ, s1, s2⟩ := mem_den.1 (derefT_den o.good e1 hr hI)
      refine ⟨_, List.mem_append_right _ (List.mem_singleton.2 rfl), ?_⟩
      rw [den_fresh]
      exact mem_den.2 ⟨σ, fun c hc => s1 c (List.mem_filter.1 hc).1, s2⟩

/-- what is followed of the chart and the agenda; `C` is covered already -/
def frameS (g : Cfg) (I : Set Tm) (L : Finset Nat) (C : Set Tm) : Frame St where
  Cv s := Cover I s.chart
  Wf s := (∀ t ∈ s.chart, Fine g L t) ∧ C ⊆ Cover I s.chart
  Le a b := Cover I a.chart ⊆ Cover I b.chart ∧ (∀ d ∈ a.agenda, d ∈ b.agenda) ∧
    (∀ t ∈ b.chart, t ∈ a.chart ∨ ∃ d ∈ b.agenda, Den I t = Den I d) ∧ ∀ d ∈ b.agenda, d ∈ a.agenda ∨ Den I d ⊆ Cover I b.chart
  refl _ := ⟨subset_rfl, fun _ h => h, fun _ h => .inl h, fun _ h => .inl h⟩
  trans h1 h2 := by
    refine ⟨h1.1.trans h2.1, fun d hd => h2.2.1 d (h1.2.1 d hd), fun t ht => ?_, fun d hd => ?_⟩
    · rcases h2.2.2.1 t ht with h | h
      · rcases h1.2.2.1 t h with h | ⟨d, hd, h⟩
        · exact .inl h
        · exact .inr ⟨d, h2.2.1 d hd, h⟩
      · exact .inr h
    · rcases h2.2.2.2 d hd with h | h
      · exact (h1.2.2.2 d h).imp_right fun h => h.trans h2.1
      · exact .inr h
  cv h := h.1

theorem push_both (hs : Sound g I L) (hD : 0 < g.D) {C : Set Tm} {k0 k : Nat} (hL : ∀ n ∈ L, n < k0) (hk0 : k0 ≤ k) {h : Heap} (o : Ok h (Vs L k)) {f : Nat}
    {R : Ty} (hv : tvars R ⊆ Vs L k) (hu : User g R.1) : Steps (frameS g I L C) k h (push g f R) ∧
      ∀ θ, Resp h θ → (∀ c ∈ R.2, (gsub θ c).1 ∈ I) → Hits (frameS g I L C) k h (push g f R) (gsub θ R.1).1 := by
  have key : ∀ s h' s', k ≤ s.2 → (frameS g I L C).Wf s.1 → push g f R h s = some (h', s', .done) →
      (h' = h ∧ s.2 ≤ s'.2 ∧ (frameS g I L C).Wf s'.1 ∧ (frameS g I L C).Le s.1 s'.1) ∧
      ∀ θ, Resp h θ → (∀ c ∈ R.2, (gsub θ c).1 ∈ I) → (gsub θ R.1).1 ∈ (frameS g I L C).Cv s'.1 := by
    intro s h' s' hk hw e
    unfold push at e
    split at e
    · cases e
    · next R' e1 =>
      have hf : ∀ n ∈ tvars R', n ∉ L := fun n hn => vs_notin (derefT_vars o e1 hv hn)
      have hu' := derefT_user e1 hu
      split at e
      · cases e
      · next e2 =>
        simp only [Option.some.injEq, Prod.mk.injEq, and_true] at e
        obtain ⟨rfl, rfl⟩ := e
        refine ⟨⟨rfl, le_refl _, hw, (frameS g I L C).refl _⟩, fun θ hr hI => ?_⟩
        obtain ⟨_, _, h1, _⟩ := (relax_spec hs hD hf hu' e2).1 _ (derefT_den o.good e1 hr hI)
        cases h1
      · next x k1 e2 =>
        obtain ⟨r1, r2⟩ := relax_spec hs hD hf hu' e2
        obtain ⟨hk1, hux⟩ := r2 x k1 rfl
        have hk2 := freshT_le k1 x
        have hin : ∀ θ, Resp h θ → (∀ c ∈ R.2, (gsub θ c).1 ∈ I) → (gsub θ R.1).1 ∈ Den I x := by
          intro θ hr hI
          obtain ⟨x', k', h1, h2⟩ := r1 _ (derefT_den o.good e1 hr hI)
          simp only [Option.some.injEq, Prod.mk.injEq] at h1
          rw [h1.1]; exact h2
        simp only at e
        split at e
        · cases e
        · next ys k3 e3 =>
          simp only [Option.some.injEq, Prod.mk.injEq, and_true] at e
          obtain ⟨rfl, rfl⟩ := e
          obtain ⟨a1, a2, a3, a4, a5, a6⟩ := add_spec hs hL (((hk0.trans hk).trans hk1).trans hk2) hw.1 (user_fresh hux) e3
          refine ⟨⟨rfl, (hk1.trans hk2).trans a1, hw, (frameS g I L C).refl _⟩, fun θ hr hI => ?_⟩
          rw [den_fresh, a5 rfl] at a4
          exact a4 (hin θ hr hI)
        · next ys k3 e3 =>
          simp only [Option.some.injEq, Prod.mk.injEq, and_true] at e
          obtain ⟨rfl, rfl⟩ := e
          obtain ⟨a1, a2, a3, a4, a5, a6⟩ := add_spec hs hL (((hk0.trans hk).trans hk1).trans hk2) hw.1 (user_fresh hux) e3
          refine ⟨⟨rfl, (hk1.trans hk2).trans a1, ⟨a2, hw.2.trans a3⟩, a3, fun d hd => by simp [hd], fun t ht => ?_, fun d hd => ?_⟩, fun θ hr hI => ?_⟩
          · rcases a6 t ht with h | h
            · exact .inl h
            · exact .inr ⟨_, by simp, h⟩
          · rcases List.mem_append.1 hd with hd | hd
            · exact .inl hd
            · rw [List.mem_singleton.1 hd]; exact .inr a4
          · rw [den_fresh] at a4
            exact a4 (hin θ hr hI)
  exact ⟨fun s h' s' hk hw e => (key s h' s' hk hw e).1, fun θ hr hI s h' s' hk hw e => (key s h' s' hk hw e).2 θ hr hI⟩

/-- a rule whose subgoals and head are ordinary, with variables that may be bound -/
structure RuleOk (g : Cfg) (L : Finset Nat) (k : Nat) (r : Ty) : Prop where
  vs : tvars r ⊆ Vs L k
  user : User g r.1
  call : ∀ q ∈ r.2, Callable q

theorem RuleOk.mono {k k' : Nat} (h : k ≤ k') {r : Ty} (hr : RuleOk g L k r) : RuleOk g L k' r :=
  ⟨hr.vs.trans (Vs_mono h), hr.user, hr.call⟩

theorem driveAt_both (W : World g I) (hin : ∀ p ∈ g.inputs, vars p ⊆ L) (hs : Sound g I L) (hD : 0 < g.D) {C : Set Tm} {k0 k : Nat} (hL : ∀ n ∈ L, n < k0)
    (hk0 : k0 ≤ k) {h : Heap} (o : Ok h (Vs L k)) {f : Nat} {d r : Ty} (hd : tvars d ⊆ Vs L k) (hr : RuleOk g L k r) (i : Nat) :
    Steps (frameS g I L C) k h (driveAt g f d r i) ∧ ∀ θ q, Resp h θ → r.2[i]? = some q → gsub θ q = gsub θ d.1 →
      (∀ c ∈ d.2, (gsub θ c).1 ∈ I) → (∀ q' ∈ r.2.eraseIdx i, (gsub θ q').1 ∈ I ∨ (gsub θ q').1 ∈ C) →
      Hits (frameS g I L C) k h (driveAt g f d r i) (gsub θ r.1).1 := by
  cases hq : r.2[i]? with
  | none =>
    refine ⟨fun s h' s' hk hw e => ?_, fun θ q _ hc => by cases hc⟩
    simp only [driveAt, hq, Option.some.injEq, Prod.mk.injEq, and_true] at e
    obtain ⟨rfl, rfl⟩ := e
    exact ⟨rfl, le_refl _, hw, (frameS g I L C).refl _⟩
  | some q =>
    have hqm : q ∈ r.2 := List.mem_of_getElem? hq
    have hqv : vars q ⊆ Vs L k := fun n hn => hr.vs (mem_tvars.2 (.inr ⟨q, hqm, hn⟩))
    have hdv : vars d.1 ⊆ Vs L k := fun n hn => hd (mem_tvars.2 (.inl hn))
    have hrest : ∀ q' ∈ r.2.eraseIdx i, vars q' ⊆ Vs L k ∧ Callable q' := by
      intro q' hq'
      have hm := List.mem_of_mem_eraseIdx hq'
      exact ⟨fun n hn => hr.vs (mem_tvars.2 (.inr ⟨q', hm, hn⟩)), hr.call q' hm⟩
    have hnew : ∀ {ys : List Tm} {k' : Nat}, k ≤ k' → (∀ y ∈ ys, vars y ⊆ Vs L k') → tvars (r.1, ys ++ d.2) ⊆ Vs L k' := by
      intro ys k' hk hy n hn
      rw [mem_tvars] at hn
      rcases hn with hn | ⟨c, hc, hn⟩
      · exact Vs_mono hk (hr.vs (mem_tvars.2 (.inl hn)))
      · rcases List.mem_append.1 hc with hc | hc
        · exact hy c hc hn
        · exact Vs_mono hk (hd (mem_tvars.2 (.inr ⟨c, hc, hn⟩)))
    have hcs : ContS (frameS g I L C) L k fun ds => push g f (r.1, ds ++ d.2) := fun ys k' h' hk o' hy =>
      (push_both hs hD hL (hk0.trans hk) o' (hnew hk hy) hr.user).1
    have hb : ∀ h', Ok h' (Vs L k) → Steps (frameS g I L C) k h' fun h s => join g f s.1.chart (r.2.eraseIdx i) (fun ds => push g f (r.1, ds ++ d.2)) h s :=
      fun h' o' s h2 s2 hk hw e => join_steps hL s.1.chart hk0 o' hrest hcs s h2 s2 hk hw e
    obtain ⟨u1, u2⟩ := unify_both (f := f) o hqv hdv hb
    have hda : driveAt g f d r i h = unifyF f q d.1 (fun h s => join g f s.1.chart (r.2.eraseIdx i) (fun ds => push g f (r.1, ds ++ d.2)) h s) h := by
      funext s
      simp only [driveAt, hq]
    refine ⟨fun s h' s' hk hw e => u1 s h' s' hk hw (by rw [hda] at e; exact e), fun θ q1 hrs e1 he hI hC s h' s' hk hw e => ?_⟩
    simp only [Option.some.injEq] at e1
    subst e1
    rw [hda] at e
    refine u2 θ _ hrs he (fun h1 o1 hr1 s1 h2 s2 hk1 hw1 e2 => ?_) s h' s' hk hw e
    refine join_hits W.queries hin hL (fun t ht => (hw1.1 t ht).2) hk0 o1 hrest hcs hr1 (fun ys k' h' θ' hk' o' hy hθ hr' hIy => ?_)
      (fun q' hq' => (hC q' hq').imp_right fun h => hw1.2 h) s1 h2 s2 hk1 hw1 e2
    have h3 := (push_both (C := C) hs hD hL (hk0.trans hk') o' (f := f) (hnew hk' hy) hr.user).2 θ' hr' (by
      intro c hc
      rcases List.mem_append.1 hc with hc | hc
      · exact hIy c hc
      · rw [gsub_vs hθ fun n hn => hd (mem_tvars.2 (.inr ⟨c, hc, hn⟩))]
        exact hI c hc)
    rw [gsub_vs hθ fun n hn => hr.vs (mem_tvars.2 (.inl hn))] at h3
    exact h3

/-- The invariant of `_run_basic`: `P` are the types popped so far. -/
structure Inv (g : Cfg) (I : Set Tm) (L : Finset Nat) (P : Set Ty) (s : St) : Prop where
  fine : ∀ t ∈ s.chart, Fine g L t
  src : ∀ t ∈ s.chart, (∃ p ∈ P, Den I t ⊆ Den I p) ∨ ∃ d ∈ s.agenda, Den I t ⊆ Den I d
  cvP : ∀ p ∈ P, Den I p ⊆ Cover I s.chart
  cvA : ∀ d ∈ s.agenda, Den I d ⊆ Cover I s.chart
  clo : ∀ r ∈ g.rules, ∀ θ : Nat → GTm, (∀ q ∈ r.2, (gsub θ q).1 ∈ I ∨ ∃ p ∈ P, (gsub θ q).1 ∈ Den I p) → (gsub θ r.1).1 ∈ Cover I s.chart

theorem popStep_inv (W : World g I) (hin : ∀ p ∈ g.inputs, vars p ⊆ L) (hs : Sound g I L) (hD : 0 < g.D) {k0 : Nat} (hL : ∀ n ∈ L, n < k0)
    {f : Nat} {P : Set Ty} {d : Ty} {ag ch : List Ty} {k : Nat} {s' : St × Nat} (hk0 : k0 ≤ k) (hrs : ∀ r ∈ g.rules, RuleOk g L k r)
    (hi : Inv g I L P ⟨ch, d :: ag⟩) (e : popStep g f (⟨ch, d :: ag⟩, k) = some s') :
    k ≤ s'.2 ∧ Inv g I L (insert d P) s'.1 := by
  unfold popStep at e
  simp only at e
  split at e
  · next h1 s1 e1 =>
    simp only [Option.some.injEq] at e
    subst e
    set d' := freshT k d with hd'
    have hkd : k ≤ d'.2 := freshT_le k d
    have hdv : tvars d'.1 ⊆ Vs L d'.2 := fresh_Vs hL hk0 d
    have hb : ∀ r ∈ g.rules, ∀ i, _ := fun r hr i =>
      driveAt_both W hin hs hD (C := Cover I ch) hL (hk0.trans hkd) (Solver2.ok_noHeap (Vs L d'.2)) (f := f) hdv ((hrs r hr).mono hkd) i
    have hst : ∀ r ∈ g.rules, Steps (frameS g I L (Cover I ch)) d'.2 noHeap (forEach (List.range r.2.length) (driveAt g f d'.1 r)) :=
      fun r hr => forEach_steps fun i _ => (hb r hr i).1
    have hw : (frameS g I L (Cover I ch)).Wf (⟨ch, ag⟩ : St) := ⟨hi.fine, subset_rfl⟩
    obtain ⟨-, k1, w1, l1, l2, l3, l4⟩ := forEach_steps hst (⟨ch, ag⟩, d'.2) _ _ (le_refl _) hw e1
    refine ⟨hkd.trans k1, w1.1, fun t ht => ?_, fun p hp => ?_, fun a ha => ?_, fun r hr θ hq => ?_⟩
    · rcases l3 t ht with h | ⟨a, ha, h⟩
      · rcases hi.src t h with ⟨p, hp, h⟩ | ⟨a, ha, h⟩
        · exact .inl ⟨p, .inr hp, h⟩
        · rcases List.mem_cons.1 ha with ha | ha
          · subst ha
            exact .inl ⟨a, .inl rfl, by assumption⟩
          · exact .inr ⟨a, l2 a ha, h⟩
      · exact .inr ⟨a, ha, h.subset⟩
    · rcases hp with rfl | hp
      · exact (hi.cvA p (by simp)).trans l1
      · exact (hi.cvP p hp).trans l1
    · rcases l4 a ha with h | h
      · exact (hi.cvA a (by simp [show a ∈ ag from h])).trans l1
      · exact h
    · by_cases hold : ∀ q ∈ r.2, (gsub θ q).1 ∈ I ∨ ∃ p ∈ P, (gsub θ q).1 ∈ Den I p
      · exact l1 (hi.clo r hr θ hold)
      · push Not at hold
        obtain ⟨q, hqm, hqI, hqP⟩ := hold
        have hqd : (gsub θ q).1 ∈ Den I d := by
          rcases hq q hqm with h | ⟨p, hp, h⟩
          · exact (hqI h).elim
          · rcases hp with rfl | hp
            · exact h
            · exact (hqP p hp h).elim
        obtain ⟨i, hi1⟩ := List.mem_iff_getElem?.1 hqm
        obtain ⟨τ, t1, t2, t3⟩ := freshT_inst (k := k) hqd θ
        have hτ : ∀ t, vars t ⊆ Vs L k → gsub τ t = gsub θ t := fun t ht => gsub_vs t1 ht
        have hrv : ∀ q' ∈ r.2, vars q' ⊆ Vs L k := fun q' hq' n hn => (hrs r hr).vs (mem_tvars.2 (.inr ⟨q', hq', hn⟩))
        have hhit := (hb r hr i).2 τ q (fun n t h => by simp [noHeap] at h) hi1 (by
            apply Subtype.ext
            rw [hτ q (hrv q hqm)]
            exact t3.symm) t2 (by
            intro q' hq'
            have hm := List.mem_of_mem_eraseIdx hq'
            rw [hτ q' (hrv q' hm)]
            rcases hq q' hm with h | ⟨p, hp, h⟩
            · exact .inl h
            · refine .inr ?_
              rcases hp with rfl | hp
              · exact hi.cvA p (by simp) h
              · exact hi.cvP p hp h)
        rw [hτ r.1 fun n hn => (hrs r hr).vs (mem_tvars.2 (.inl hn))] at hhit
        have hlen : i < r.2.length := by
          by_contra hlt
          rw [List.getElem?_eq_none (by omega)] at hi1
          cases hi1
        exact forEach_hits hst r hr (forEach_hits (fun i _ => (hb r hr i).1) i (List.mem_range.2 hlen) hhit) (⟨ch, ag⟩, d'.2) _ _ (le_refl _) hw e1
  · cases e

/-- a chart that is closed under the rules -/
def Closed (g : Cfg) (I : Set Tm) (ch : List Ty) : Prop :=
  ∀ r ∈ g.rules, ∀ θ : Nat → GTm, (∀ q ∈ r.2, (gsub θ q).1 ∈ I ∨ (gsub θ q).1 ∈ Cover I ch) → (gsub θ r.1).1 ∈ Cover I ch

theorem rounds_closed (W : World g I) (hin : ∀ p ∈ g.inputs, vars p ⊆ L) (hs : Sound g I L) (hD : 0 < g.D) {k0 : Nat} (hL : ∀ n ∈ L, n < k0)
    {f : Nat} : ∀ {n : Nat} {s : St × Nat} {P : Set Ty} {ch : List Ty} {k' : Nat}, k0 ≤ s.2 → (∀ r ∈ g.rules, RuleOk g L s.2 r) → Inv g I L P s.1 →
    rounds g f n s = some (ch, k') → s.2 ≤ k' ∧ (∀ t ∈ ch, Fine g L t) ∧ Closed g I ch := by
  intro n
  induction n with
  | zero =>
    intro s P ch k' hk hrs hi e
    unfold rounds at e
    split at e
    · next h1 =>
      simp only [Option.some.injEq, Prod.mk.injEq] at e
      obtain ⟨rfl, rfl⟩ := e
      refine ⟨le_refl _, hi.fine, fun r hr θ hq => hi.clo r hr θ fun q hm => (hq q hm).imp_right ?_⟩
      rintro ⟨t, ht, hd⟩
      rcases hi.src t ht with ⟨p, hp, h⟩ | ⟨d, hd', _⟩
      · exact ⟨p, hp, h hd⟩
      · rw [h1] at hd'; simp at hd'
    · cases e
  | succ n ih =>
    intro s P ch k' hk hrs hi e
    obtain ⟨⟨ch0, ag0⟩, k⟩ := s
    cases ag0 with
    | nil =>
      simp only [rounds, Option.some.injEq, Prod.mk.injEq] at e
      obtain ⟨rfl, rfl⟩ := e
      refine ⟨le_refl _, hi.fine, fun r hr θ hq => hi.clo r hr θ fun q hm => (hq q hm).imp_right ?_⟩
      rintro ⟨t, ht, hd⟩
      rcases hi.src t ht with ⟨p, hp, h⟩ | ⟨d, hd', _⟩
      · exact ⟨p, hp, h hd⟩
      · simp at hd'
    | cons d ag =>
      simp only [rounds] at e
      split at e
      · cases e
      · next s1 e1 =>
        obtain ⟨a1, a2⟩ := popStep_inv W hin hs hD hL hk hrs hi e1
        obtain ⟨b1, b2, b3⟩ := ih (hk.trans a1) (fun r hr => (hrs r hr).mono a1) a2 e
        exact ⟨a1.trans b1, b2, b3⟩

theorem collected (W : World g I) (hin : ∀ p ∈ g.inputs, vars p ⊆ L) {k0 : Nat} (hL : ∀ n ∈ L, n < k0) {f k : Nat} (hk0 : k0 ≤ k) {chart : List Ty}
    (hu : ∀ t ∈ chart, User g t.1) (keep : Tm → Bool) (qs : Ty → List Tm) {rs : List Ty} (hrs : ∀ r ∈ rs, RuleOk g L k r)
    (hqs : ∀ r ∈ rs, ∀ q ∈ qs r, vars q ⊆ Vs L k ∧ Callable q)
    {h' : Heap} {Rs : List Ty} {k' : Nat}
    (e : forEach rs (fun r => join g f chart (qs r) fun ds => collect f keep (r.1, ds)) noHeap ([], k) = some (h', (Rs, k'), .done)) :
    k ≤ k' ∧ (∀ R ∈ Rs, Fine g L R) ∧ ∀ r ∈ rs, ∀ θ : Nat → GTm, (∀ q ∈ qs r, (gsub θ q).1 ∈ I ∨ (gsub θ q).1 ∈ Cover I chart) →
      (gsub θ r.1).1 ∈ Cover I Rs := by
  have o := Solver2.ok_noHeap (Vs L k)
  have hv : ∀ r ∈ rs, ∀ {ys : List Tm} {k' : Nat}, k ≤ k' → (∀ y ∈ ys, vars y ⊆ Vs L k') → tvars (r.1, ys) ⊆ Vs L k' := by
    intro r hr ys k' hk hy n hn
    rw [mem_tvars] at hn
    rcases hn with hn | ⟨c, hc, hn⟩
    · exact Vs_mono hk ((hrs r hr).vs (mem_tvars.2 (.inl hn)))
    · exact hy c hc hn
  have hcs : ∀ r ∈ rs, ContS (frameL g I L) L k fun ds => collect f keep (r.1, ds) := fun r hr ys k' h' hk o' hy =>
    (collect_both hL (hk0.trans hk) o' (hv r hr hk hy) (hrs r hr).user).1
  have hst : ∀ r ∈ rs, Steps (frameL g I L) k noHeap (join g f chart (qs r) fun ds => collect f keep (r.1, ds)) := fun r hr =>
    join_steps hL chart hk0 o (hqs r hr) (hcs r hr)
  have hw : (frameL g I L).Wf ([] : List Ty) := by intro t ht; simp at ht
  obtain ⟨-, a1, a2, -⟩ := forEach_steps hst ([], k) h' (Rs, k') (le_refl _) hw e
  refine ⟨a1, a2, fun r hr θ hq => ?_⟩
  refine forEach_hits hst r hr ?_ ([], k) h' (Rs, k') (le_refl _) hw e
  refine join_hits W.queries hin hL hu hk0 o (hqs r hr) (hcs r hr) (fun n t h => by simp [noHeap] at h) (fun ys k' h' θ' hk o' hy hθ hr' hI => ?_) hq
  have := (collect_both (I := I) hL (hk0.trans hk) o' (f := f) (keep := keep) (hv r hr hk hy) (hrs r hr).user).2 θ' hr' hI
  rw [gsub_vs hθ fun n hn => (hrs r hr).vs (mem_tvars.2 (.inl hn))] at this
  exact this

theorem step_spec (W : World g I) (hin : ∀ p ∈ g.inputs, vars p ⊆ L) (hs : Sound g I L) (hD : 0 < g.D) {k0 : Nat} (hL : ∀ n ∈ L, n < k0) {f k : Nat}
    (hk0 : k0 ≤ k) {chart : List Ty} (hu : ∀ t ∈ chart, User g t.1) (hrs : ∀ r ∈ g.rules, RuleOk g L k r) {xs : List Ty} {k' : Nat}
    (e : step g f k chart = some (xs, k')) :
    k ≤ k' ∧ (∀ x ∈ xs, Fine g L x) ∧ ∀ r ∈ g.rules, ∀ θ : Nat → GTm, (∀ q ∈ r.2, (gsub θ q).1 ∈ I ∨ (gsub θ q).1 ∈ Cover I chart) →
      (gsub θ r.1).1 ∈ Cover I xs := by
  unfold step at e
  split at e
  · cases e
  · next Rs k1 e1 =>
    unfold progStep at e1
    split at e1
    · next h2 s2 e2 =>
      simp only [Option.some.injEq] at e1
      subst e1
      obtain ⟨a1, a2, a3⟩ := collected W hin hL hk0 hu _ (fun r => r.2) hrs (fun r hr q hq =>
        ⟨fun n hn => (hrs r hr).vs (mem_tvars.2 (.inr ⟨q, hq, hn⟩)), (hrs r hr).call q hq⟩) e2
      split at e
      · cases e
      · next ys k2 e3 =>
        obtain ⟨b1, b2, b3⟩ := relaxAll_spec hs hD a2 e3
        obtain ⟨c1, c2, -, c4, -⟩ := addAll_spec hs hL ((hk0.trans a1).trans b1) (by simp) b2 e
        exact ⟨(a1.trans b1).trans c1, c2, fun r hr θ hq => c4 (b3 (a3 r hr θ hq))⟩
    · cases e1

theorem runBasic_closed (W : World g I) (hin : ∀ p ∈ g.inputs, vars p ⊆ L) (hs : Sound g I L) (hD : 0 < g.D) {k0 : Nat} (hL : ∀ n ∈ L, n < k0) {f n k : Nat}
    (hk0 : k0 ≤ k) (hrs : ∀ r ∈ g.rules, RuleOk g L k r) {ch : List Ty} {k' : Nat} (e : runBasic g f n k = some (ch, k')) :
    k ≤ k' ∧ (∀ t ∈ ch, Fine g L t) ∧ Closed g I ch := by
  unfold runBasic at e
  split at e
  · cases e
  · next ag k1 e1 =>
    obtain ⟨a1, a2, a3⟩ := step_spec W hin hs hD hL hk0 (by simp) hrs e1
    split at e
    · cases e
    · next ch0 k2 e2 =>
      obtain ⟨b1, b2, -, b4, b5⟩ := addAll_spec hs hL (hk0.trans a1) (by simp) (fun r hr => (a2 r hr).2) e2
      obtain ⟨c1, c2, c3⟩ := rounds_closed (P := ∅) W hin hs hD hL (s := (⟨ch0, ag⟩, k2)) ((hk0.trans a1).trans b1)
        (fun r hr => (hrs r hr).mono (a1.trans b1)) ⟨b2, fun t ht => by
          rcases b5 t ht with h | ⟨r, hr, h⟩
          · simp at h
          · exact .inr ⟨r, hr, h.subset⟩, by simp, fun d hd z hz => b4 ⟨d, hd, hz⟩, fun r hr θ hq => b4 (a3 r hr θ fun q hm => by
            rcases hq q hm with h | ⟨p, hp, _⟩
            · exact .inl h
            · exact (Set.notMem_empty _ hp).elim)⟩ e
      exact ⟨(a1.trans b1).trans c1, c2, c3⟩

theorem runGen_closed (W : World g I) (hin : ∀ p ∈ g.inputs, vars p ⊆ L) (hs : Sound g I L) (hD : 0 < g.D) {k0 : Nat} (hL : ∀ n ∈ L, n < k0)
    {disj : Nat → List Ty → Option (List Ty × Nat)} {same : List Ty → List Ty → Bool} {f : Nat}
    (hdj : ∀ k xs ys k', k0 ≤ k → (∀ t ∈ xs, Fine g L t) → disj k xs = some (ys, k') → k ≤ k' ∧ (∀ t ∈ ys, Fine g L t) ∧ Cover I xs ⊆ Cover I ys)
    (hsm : ∀ xs ys, same xs ys = true → Cover I xs ⊆ Cover I ys) :
    ∀ {n k : Nat} {chart ch : List Ty} {k' : Nat}, k0 ≤ k → (∀ r ∈ g.rules, RuleOk g L k r) → (∀ t ∈ chart, Fine g L t) →
      runGen g disj same f n k chart = some (ch, k') → (∀ t ∈ ch, Fine g L t) ∧ Closed g I ch := by
  intro n
  induction n with
  | zero => intro k chart ch k' _ _ _ e; simp [runGen] at e
  | succ n ih =>
    intro k chart ch k' hk hrs hf e
    simp only [runGen] at e
    split at e
    · cases e
    · next xs k1 e1 =>
      obtain ⟨a1, a2, a3⟩ := step_spec W hin hs hD hL hk (fun t ht => (hf t ht).2) hrs e1
      split at e
      · cases e
      · next new k2 e2 =>
        obtain ⟨b1, b2, b3⟩ := hdj _ _ _ _ (hk.trans a1) a2 e2
        split at e
        · next h =>
          simp only [Option.some.injEq, Prod.mk.injEq] at e
          obtain ⟨rfl, rfl⟩ := e
          exact ⟨hf, fun r hr θ hq => hsm _ _ h (b3 (a3 r hr θ hq))⟩
        · exact ih ((hk.trans a1).trans b1) (fun r hr => (hrs r hr).mono (a1.trans b1)) b2 e

/-! ### The theorems -/

/-- a rule of the weighted program whose subgoals and head are ordinary -/
structure WOk {W : Type} (g : Cfg) (L : Finset Nat) (k : Nat) (r : WRule W) : Prop where
  vs : ∀ n ∈ Sem.rvars r, n ∉ L ∧ n < k
  user : User g r.head
  call : ∀ t, .sub t ∈ r.body → ∃ c as, t = .app (.con c :: as)

theorem sub_vars {W : Type} {b : List (Lit W)} {t : Tm} (h : .sub t ∈ b) : vars t ⊆ Sem.bodyVars b := by
  induction b with
  | nil => simp at h
  | cons l b ih =>
    simp only [Sem.bodyVars]
    rcases List.mem_cons.1 h with h | h
    · subst h; exact Finset.subset_union_left
    · exact (ih h).trans Finset.subset_union_right

theorem mem_bool {W : Type} {r : WRule W} {q : Tm} : q ∈ (boolRule r).2 ↔
    .sub q ∈ r.body ∨ ∃ v ∈ vars r.head, v ∉ Solver2.bodyVs r.body ∧ q = .app [.con (.str "$free"), .var v] := by
  simp only [boolRule, List.mem_append, List.mem_filterMap, List.mem_map, List.mem_filter, decide_eq_true_eq, Finset.mem_sdiff]
  constructor
  · rintro (⟨l, hl, e⟩ | ⟨v, ⟨_, h1, h2⟩, rfl⟩)
    · cases l with
      | val _ => cases e
      | sub t =>
        simp only [Option.some.injEq] at e
        subst e
        exact .inl hl
    · exact .inr ⟨v, h1, h2, rfl⟩
  · rintro (h | ⟨v, h1, h2, rfl⟩)
    · exact .inl ⟨_, h, rfl⟩
    · exact .inr ⟨v, ⟨List.mem_range.2 (Finset.le_sup (f := (· + 1)) h1), h1, h2⟩, rfl⟩

theorem WOk.bool {W : Type} {k : Nat} {r : WRule W} (h : WOk g L k r) : RuleOk g L k (boolRule r) := by
  have hv : ∀ {n}, n ∈ Sem.rvars r → n ∈ Vs L k := fun {n} hn => by
    simp only [Vs, Finset.mem_sdiff, Finset.mem_range]
    exact ⟨(h.vs n hn).2, (h.vs n hn).1⟩
  refine ⟨fun n hn => ?_, h.user, fun q hq => ?_⟩
  · rcases mem_tvars.1 hn with hn | ⟨c, hc, hn⟩
    · exact hv (Finset.mem_union_left _ hn)
    · rcases mem_bool.1 hc with hc | ⟨v, hv1, _, rfl⟩
      · exact hv (Finset.mem_union_right _ (sub_vars hc hn))
      · simp only [vars_app, mem_varsL, List.mem_cons, List.not_mem_nil, or_false] at hn
        obtain ⟨_, rfl | rfl, hn⟩ := hn
        · simp at hn
        · simp only [vars_var, Finset.mem_singleton] at hn
          subst hn
          exact hv (Finset.mem_union_left _ hv1)
  · rcases mem_bool.1 hq with hq | ⟨v, _, _, rfl⟩
    · exact h.call q hq
    · exact ⟨_, _, rfl⟩

theorem closed_derives {W : Type} {p : List (WRule W)} (Wd : World g I) (hp : g.rules = toTypeProgram p) {ch : List Ty} (hc : Closed g I ch) {x : Tm}
    (h : Derives p I x) : x ∈ Cover I ch := by
  induction h with
  | @rule r θ hr _ ih =>
    refine hc (boolRule r) (by rw [hp]; exact List.mem_map_of_mem hr) θ fun q hq => ?_
    rcases mem_bool.1 hq with hq | ⟨v, _, _, rfl⟩
    · by_cases h : (gsub θ q).1 ∈ I
      · exact .inl h
      · exact .inr (ih q hq h)
    · refine .inl ?_
      have := Wd.free (θ v).1 (θ v).2
      simpa [gsub_eq] using this

/-- **C61, type analysis covers everything that can be derived.**  If `_run_basic` ends, then everything that the
program and the input type can derive belongs to a type of the chart, whatever set `I` of constraints holds, if
the rewrites lose nothing under `I`, and no rule has a head with the functor of a constraint. -/
theorem C61_sound {W : Type} {p : List (WRule W)} (Wd : World g I) (hs : Sound g I L) (hp : g.rules = toTypeProgram p)
    (hin : ∀ t ∈ g.inputs, vars t ⊆ L) (hD : 0 < g.D) {f n k : Nat} (hL : ∀ n ∈ L, n < k) (hr : ∀ r ∈ p, WOk g L k r) {ch : List Ty} {k' : Nat}
    (e : runBasic g f n k = some (ch, k')) {x : Tm} (h : Derives p I x) : ∃ t ∈ ch, x ∈ Den I t := by
  obtain ⟨-, -, hc⟩ := runBasic_closed Wd hin hs hD hL (le_refl _) (fun r hr' => by
    rw [hp] at hr'
    obtain ⟨r0, hr0, rfl⟩ := List.mem_map.1 hr'
    exact (hr r0 hr0).bool) e
  exact closed_derives Wd hp hc h

/-- **C61, the same for `_run_generalizing`**, if `disjoin` loses nothing. -/
theorem C61_generalizing {W : Type} {p : List (WRule W)} (Wd : World g I) (hs : Sound g I L) (hp : g.rules = toTypeProgram p)
    (hin : ∀ t ∈ g.inputs, vars t ⊆ L) (hD : 0 < g.D) {f n k : Nat} (hL : ∀ n ∈ L, n < k) (hr : ∀ r ∈ p, WOk g L k r)
    {disj : Nat → List Ty → Option (List Ty × Nat)} {same : List Ty → List Ty → Bool}
    (hdj : ∀ k1 xs ys k', k ≤ k1 → (∀ t ∈ xs, Fine g L t) → disj k1 xs = some (ys, k') → k1 ≤ k' ∧ (∀ t ∈ ys, Fine g L t) ∧ Cover I xs ⊆ Cover I ys)
    (hsm : ∀ xs ys, same xs ys = true → Cover I xs ⊆ Cover I ys) {ch : List Ty} {k' : Nat}
    (e : runGen g disj same f n k [] = some (ch, k')) {x : Tm} (h : Derives p I x) : ∃ t ∈ ch, x ∈ Den I t := by
  obtain ⟨-, hc⟩ := runGen_closed Wd hin hs hD hL hdj hsm (le_refl _) (fun r hr' => by
    rw [hp] at hr'
    obtain ⟨r0, hr0, rfl⟩ := List.mem_map.1 hr'
    exact (hr r0 hr0).bool) (by simp) e
  exact closed_derives Wd hp hc h

open Classical in
theorem T_ne {W : Type} [Sem.CSemi W] {p : List (WRule W)} {v : GTm → W} {x : GTm} (h : Sem.T p v x ≠ 0) :
    ∃ r ∈ p, ∃ θ : Nat → GTm, gsub θ r.head = x ∧ ∀ t, .sub t ∈ r.body → v (gsub θ t) ≠ 0 := by
  by_contra hn
  push Not at hn
  apply h
  unfold Sem.T
  apply List.sum_eq_zero
  intro y hy
  obtain ⟨r, hr, rfl⟩ := List.mem_map.1 hy
  unfold Sem.contrib
  refine (Sem.isum_congr fun a => ?_).trans Sem.isum_zero
  split
  · next he =>
    obtain ⟨t, ht, h0⟩ := hn r hr _ he
    unfold Sem.bv
    apply List.prod_eq_zero
    exact List.mem_map.2 ⟨_, ht, h0⟩
  · rfl

/-- what has a value in some round can be derived -/
theorem support {W : Type} [Sem.CSemi W] {p T : List (WRule W)} {d : GTm → W} (hd : ∀ x, d x ≠ 0 → x.1 ∈ I ∨ Derives (p ++ T) I x.1) :
    ∀ (m : Nat) (x : GTm), Sem.rounds p d m x ≠ 0 → x.1 ∈ I ∨ Derives (p ++ T) I x.1 := by
  intro m
  induction m with
  | zero => intro x hx; exact absurd rfl hx
  | succ m ih =>
    intro x hx
    by_cases h0 : d x = 0
    · simp only [Sem.rounds, h0, zero_add] at hx
      obtain ⟨r, hr, θ, rfl, h⟩ := T_ne hx
      exact .inr (.rule θ (List.mem_append_left _ hr) fun t ht hI => (ih _ (h t ht)).resolve_left hI)
    · exact hd x h0

/-- **C61, values.**  In any semiring: an item of the program `p` that gets a value different from zero, from input
data that the input type `T` describes, belongs to a type of the chart (or is a constraint that holds). -/
theorem C61_support {W : Type} [Sem.CSemi W] {p T : List (WRule W)} (Wd : World g I) (hs : Sound g I L) (hp : g.rules = toTypeProgram (p ++ T))
    (hin : ∀ t ∈ g.inputs, vars t ⊆ L) (hD : 0 < g.D) {f n k : Nat} (hL : ∀ n ∈ L, n < k) (hr : ∀ r ∈ p ++ T, WOk g L k r)
    {d : GTm → W} (hd : ∀ x, d x ≠ 0 → x.1 ∈ I ∨ Derives (p ++ T) I x.1) {ch : List Ty} {k' : Nat}
    (e : runBasic g f n k = some (ch, k')) {m : Nat} {x : GTm} (h : Sem.rounds p d m x ≠ 0) : x.1 ∈ I ∨ ∃ t ∈ ch, x.1 ∈ Den I t :=
  (support hd m x h).imp_right fun h => C61_sound Wd hs hp hin hD hL hr e h

/-- **C61, queries.**  What belongs to a type of `Q` and to a type of the chart belongs to a type of the result of
`intersect(Q)`. -/
theorem C61_intersect (Wd : World g I) (hs : Sound g I L) (hin : ∀ t ∈ g.inputs, vars t ⊆ L) (hD : 0 < g.D) {f k : Nat} (hL : ∀ n ∈ L, n < k)
    {chart Q : List Ty} (hch : ∀ t ∈ chart, User g t.1) (hQ : ∀ r ∈ Q, (∀ n ∈ tvars r, n ∉ L ∧ n < k) ∧ User g r.1 ∧ ∀ q ∈ r.2, Callable q)
    {ch : List Ty} {k' : Nat} (e : intersect g f k chart Q = some (ch, k')) {r : Ty} (hr : r ∈ Q) {x : Tm} (h1 : x ∈ Den I r)
    (h2 : ∃ t ∈ chart, x ∈ Den I t) : ∃ t ∈ ch, x ∈ Den I t := by
  have hok : ∀ r ∈ Q, RuleOk g L k r := fun r hr => ⟨fun n hn => by
    simp only [Vs, Finset.mem_sdiff, Finset.mem_range]
    exact ⟨((hQ r hr).1 n hn).2, ((hQ r hr).1 n hn).1⟩, (hQ r hr).2.1, (hQ r hr).2.2⟩
  unfold intersect at e
  split at e
  · next h' Rs k1 e1 =>
    obtain ⟨a1, a2, a3⟩ := collected Wd hin hL (le_refl _) hch _ (fun r => r.1 :: r.2) hok (fun r hr q hq => by
      rcases List.mem_cons.1 hq with rfl | hq
      · refine ⟨fun n hn => (hok r hr).vs (mem_tvars.2 (.inl hn)), ?_⟩
        obtain ⟨c, as, h, _⟩ := (hok r hr).user
        exact ⟨c, as, h⟩
      · exact ⟨fun n hn => (hok r hr).vs (mem_tvars.2 (.inr ⟨q, hq, hn⟩)), (hok r hr).call q hq⟩) e1
    split at e
    · cases e
    · next ys k2 e3 =>
      obtain ⟨b1, b2, b3⟩ := relaxAll_spec hs hD a2 e3
      obtain ⟨c1, c2, -, c4, -⟩ := addAll_spec hs hL (a1.trans b1) (by simp) b2 e
      obtain ⟨σ, hσ, rfl⟩ := mem_den.1 h1
      refine c4 (b3 (a3 r hr σ fun q hq => ?_))
      rcases List.mem_cons.1 hq with rfl | hq
      · exact .inr h2
      · exact .inl (hσ q hq)
  · cases e

/-- **C61, the rewrites of `Rewrites`** meet the assumption that nothing is lost: if the variables of the rules
are set aside, `I` is a model of the rules, and no equality between different compound terms is met. -/
theorem C61_rewrites {E : Propagate.Env} (A : Propagate.Apart E (L : Set Nat) []) (M : Propagate.Model E I) {ui : Bool}
    (hc : ∀ k R, g.simp k R ≠ .oof → Rewrites.Call E false ui true R (g.simp k R))
    (hodd : ∀ k (R : Ty), g.simp k R = .none → ∀ st, Propagate.Run E R.2 st → ∀ d ∈ st.chart, ¬ Propagate.Odd d) :
    (∀ k R hd bd, (∀ n ∈ tvars R, n ∉ L) → g.simp k R = .ty hd bd → Den I R ⊆ Den I (hd, bd)) ∧
      ∀ k R, (∀ n ∈ tvars R, n ∉ L) → g.simp k R = .none → Den I R = ∅ := by
  have hA : ∀ R : Ty, (∀ n ∈ tvars R, n ∉ L) → Propagate.Apart E (L : Set Nat) R.2 := fun R hR =>
    ⟨A.body, A.head, fun c hc n hn => by simpa using hR n (mem_tvars.2 (.inr ⟨c, hc, hn⟩)), A.blt, A.hooks⟩
  refine ⟨fun k R hd bd hR e => ?_, fun k R hR e => ?_⟩
  · have h := hc k R (by rw [e]; simp)
    rw [e] at h
    exact Rewrites.C53_simplify_superset (hA R hR) M h
  · have h := hc k R (by rw [e]; simp)
    rw [e] at h
    rcases Rewrites.C53_simplify_none (hA R hR) M h with h | ⟨st, h1, d, h2, h3⟩ | ⟨h, _⟩
    · exact h
    · exact (hodd k R e st h1 d h2 h3).elim
    · cases h

end

/-! ### Concrete cases -/

def mkT (s : String) (as : List Tm) : Tm := .app (.con (.str s) :: as)

def gI (z : Int) : GTm := ⟨.con (.int z), rfl⟩

/-- rewrites without rules; types are compared up to renaming -/
def cfg (rules : List Ty) (inputs : List Tm) (D : Nat) : Cfg :=
  ⟨rules, inputs, fun _ => none, .int 1, fun _ R => .ty R.1 R.2, fun _ r s => some (decide ((freshT 0 r).1 = (freshT 0 s).1)), D⟩

theorem cfg_sound (rules : List Ty) (inputs : List Tm) (D : Nat) (I : Set Tm) (L : Finset Nat) : Sound (cfg rules inputs D) I L := by
  refine ⟨fun k R hd bd _ e => ?_, fun k R _ e => ?_, fun k R hd bd c e h => ?_, fun k r s _ _ e => ?_⟩
  · simp only [cfg, Res.ty.injEq] at e
    obtain ⟨rfl, rfl⟩ := e
    exact subset_rfl
  · simp [cfg] at e
  · simp only [cfg, Res.ty.injEq] at e
    obtain ⟨rfl, rfl⟩ := e
    exact h
  · simp only [cfg, Option.some.injEq, decide_eq_true_eq] at e
    rw [← den_fresh I 0 r, ← den_fresh I 0 s, e]

/-- `path(X,Y) += edge(X,Y). path(X,Z) += path(X,Y) * edge(Y,Z).` -/
def pathP {W : Type} : List (WRule W) := [⟨mkT "path" [.var 3, .var 4], [.sub (mkT "edge" [.var 3, .var 4])]⟩,
  ⟨mkT "path" [.var 3, .var 5], [.sub (mkT "path" [.var 3, .var 4]), .sub (mkT "edge" [.var 4, .var 5])]⟩]

def pathG : Cfg := cfg (toTypeProgram (pathP (W := Nat))) [mkT "edge" [.var 0, .var 1], mkT "$free" [.var 2]] 3

/-- constants hold, `$free` holds of every ground term, and there are the edges `1 → 2 → 3` -/
def pathI : Set Tm := {x | (∃ c, x = .con c) ∨ (∃ y, vars y = ∅ ∧ x = mkT "$free" [y]) ∨
  x = mkT "edge" [.con (.int 1), .con (.int 2)] ∨ x = mkT "edge" [.con (.int 2), .con (.int 3)]}

theorem pathW : World pathG pathI where
  heads := by
    intro p hp
    simp only [pathG, cfg, List.mem_cons, List.not_mem_nil, or_false] at hp
    rcases hp with rfl | rfl <;> exact ⟨_, _, rfl⟩
  eq := by
    rintro x y (⟨c, h⟩ | ⟨z, _, h⟩ | h | h) <;> simp [mkT] at h
  ops := by intro c o x y h; simp [pathG, cfg] at h
  con := fun c => .inl ⟨c, rfl⟩
  free := fun x hx => .inr (.inl ⟨x, hx, rfl⟩)
  input := by
    rintro c as (⟨c', h⟩ | ⟨z, _, h⟩ | h | h)
    · cases h
    · simp only [mkT, Tm.app.injEq, List.cons.injEq, Tm.con.injEq] at h
      obtain ⟨rfl, rfl⟩ := h
      exact .inr (.inr ⟨mkT "$free" [.var 2], by simp [pathG, cfg], fun _ => z, by simp [mkT]⟩)
    · simp only [mkT, Tm.app.injEq, List.cons.injEq, Tm.con.injEq] at h
      obtain ⟨rfl, rfl⟩ := h
      exact .inr (.inr ⟨mkT "edge" [.var 0, .var 1], by simp [pathG, cfg], fun n => .con (.int (n + 1)), by simp [mkT]⟩)
    · simp only [mkT, Tm.app.injEq, List.cons.injEq, Tm.con.injEq] at h
      obtain ⟨rfl, rfl⟩ := h
      exact .inr (.inr ⟨mkT "edge" [.var 0, .var 1], by simp [pathG, cfg], fun n => .con (.int (n + 2)), by simp [mkT]⟩)

theorem path_user (as : List Tm) : User pathG (mkT "path" as) := by
  refine ⟨_, _, rfl, rfl, by simp, fun p hp => ?_⟩
  simp only [pathG, cfg, List.mem_cons, List.not_mem_nil, or_false] at hp
  rcases hp with rfl | rfl <;> simp [mkT, hfn]

theorem path_vs {W : Type} {r : WRule W} (h : ∀ n ∈ Sem.rvars r, n ∈ ({3, 4, 5} : Finset Nat)) :
    ∀ n ∈ Sem.rvars r, n ∉ ({0, 1, 2} : Finset Nat) ∧ n < 10 := by
  intro n hn
  have := h n hn
  simp only [Finset.mem_insert, Finset.mem_singleton] at this ⊢
  omega

theorem path_ok {W : Type} : ∀ r ∈ pathP (W := W), WOk pathG {0, 1, 2} 10 r := by
  intro r hr
  simp only [pathP, List.mem_cons, List.not_mem_nil, or_false] at hr
  rcases hr with rfl | rfl
  · refine ⟨path_vs (fun n hn => by simp [Sem.rvars, Sem.bodyVars, Sem.litVars, mkT] at hn; simp; omega), path_user _, fun t ht => ?_⟩
    simp only [List.mem_cons, Lit.sub.injEq, List.not_mem_nil, or_false] at ht
    subst ht; exact ⟨_, _, rfl⟩
  · refine ⟨path_vs (fun n hn => by simp [Sem.rvars, Sem.bodyVars, Sem.litVars, mkT] at hn; simp; omega), path_user _, fun t ht => ?_⟩
    simp only [List.mem_cons, Lit.sub.injEq, List.not_mem_nil, or_false] at ht
    rcases ht with rfl | rfl <;> exact ⟨_, _, rfl⟩

theorem path_run : runBasic pathG 20 10 10 = some ([(mkT "path" [.var 14, .var 15], [mkT "edge" [.var 14, .var 15]]),
    (mkT "path" [.var 20, .var 21], [])], 28) := by decide +kernel

theorem path13 : Derives (pathP (W := Nat)) pathI (mkT "path" [.con (.int 1), .con (.int 3)]) := by
  let θ : Nat → GTm := fun n => if n = 3 then ⟨.con (.int 1), rfl⟩ else if n = 4 then ⟨.con (.int 2), rfl⟩ else ⟨.con (.int 3), rfl⟩
  have h1 : Derives (pathP (W := Nat)) pathI (mkT "path" [.con (.int 1), .con (.int 2)]) := by
    have := Derives.rule (p := pathP (W := Nat)) (I := pathI) (r := pathP[0]) θ (by simp [pathP]) (fun t ht hn => by
      simp only [pathP, List.getElem_cons_zero, List.mem_cons, Lit.sub.injEq, List.not_mem_nil, or_false] at ht
      subst ht
      exact (hn (by simp [gsub_eq, mkT, θ, pathI])).elim)
    simpa [gsub_eq, pathP, mkT, θ] using this
  have := Derives.rule (p := pathP (W := Nat)) (I := pathI) (r := pathP[1]) θ (by simp [pathP]) (fun t ht hn => by
    simp only [pathP, List.getElem_cons_succ, List.getElem_cons_zero, List.mem_cons, Lit.sub.injEq, List.not_mem_nil, or_false] at ht
    rcases ht with rfl | rfl
    · simpa [gsub_eq, mkT, θ] using h1
    · exact (hn (by simp [gsub_eq, mkT, θ, pathI])).elim)
  simpa [gsub_eq, pathP, mkT, θ] using this

example : ∃ t ∈ [(mkT "path" [.var 14, .var 15], [mkT "edge" [.var 14, .var 15]]), (mkT "path" [.var 20, .var 21], [])],
    mkT "path" [.con (.int 1), .con (.int 3)] ∈ Den pathI t :=
  C61_sound pathW (cfg_sound _ _ _ _ {0, 1, 2}) rfl (by decide) (by decide) (by decide) path_ok path_run path13

example : ∃ t ∈ [(mkT "path" [.var 106, .con (.int 3)], [mkT "edge" [.var 106, .con (.int 3)]])],
    mkT "path" [.con (.int 2), .con (.int 3)] ∈ Den pathI t := by
  have hm : mkT "path" [.con (.int 2), .con (.int 3)] ∈ Den pathI (mkT "path" [.var 16, .con (.int 3)], [mkT "edge" [.var 16, .con (.int 3)]]) :=
    mem_den.2 ⟨fun _ => ⟨.con (.int 2), rfl⟩, by simp [gsub_eq, mkT, pathI], by simp [gsub_eq, mkT]⟩
  refine C61_intersect (f := 20) (k := 100) pathW (cfg_sound _ _ _ _ {0, 1, 2}) (by decide) (by decide) (by decide) (chart :=
      [(mkT "path" [.var 12, .var 13], []), (mkT "path" [.var 10, .var 11], [mkT "edge" [.var 10, .var 11]])])
      (Q := [(mkT "path" [.var 16, .con (.int 3)], [mkT "edge" [.var 16, .con (.int 3)]])]) ?_ ?_ (k' := 108)
      (by decide +kernel) (List.mem_singleton.2 rfl) hm ⟨(mkT "path" [.var 12, .var 13], []), by simp,
      mem_den.2 ⟨fun n => if n = 12 then gI 2 else gI 3, by simp, by simp [gsub_eq, mkT, gI]⟩⟩
  · intro t ht
    simp only [List.mem_cons, List.not_mem_nil, or_false] at ht
    rcases ht with rfl | rfl <;> exact path_user _
  · intro r hr
    simp only [List.mem_cons, List.not_mem_nil, or_false] at hr
    subst hr
    exact ⟨by decide, path_user _, fun q hq => by simp at hq; subst hq; exact ⟨_, _, rfl⟩⟩

example {m : Nat} {x : GTm} (h : Sem.rounds (W := ENNReal) pathP (fun x => if x.1 = mkT "edge" [.con (.int 1), .con (.int 2)] then 1 else 0) m x ≠ 0) :
    x.1 ∈ pathI ∨ ∃ t ∈ [(mkT "path" [.var 14, .var 15], [mkT "edge" [.var 14, .var 15]]), (mkT "path" [.var 20, .var 21], [])], x.1 ∈ Den pathI t :=
  C61_support (T := []) pathW (cfg_sound _ _ _ _ {0, 1, 2}) rfl (by decide) (by decide) (by decide) (by simpa using path_ok)
    (fun x hx => .inl (by
      by_cases h : x.1 = mkT "edge" [.con (.int 1), .con (.int 2)]
      · rw [h]; simp [pathI]
      · simp [h] at hx)) path_run h

/-- a comparison of charts: the same types in the same order, up to renaming -/
def gsame (xs ys : List Ty) : Bool := decide (xs.map (fun t => (freshT 0 t).1) = ys.map fun t => (freshT 0 t).1)

example : ∃ t ∈ [(mkT "path" [.var 21, .var 22], [mkT "edge" [.var 21, .var 22]]), (mkT "path" [.var 23, .var 24], [])],
    mkT "path" [.con (.int 1), .con (.int 3)] ∈ Den pathI t := by
  refine C61_generalizing (f := 20) (n := 6) (k := 10) (disj := fun k xs => some (xs, k)) (same := gsame) (k' := 43) pathW
    (cfg_sound _ _ _ _ {0, 1, 2}) rfl (by decide) (by decide) (by decide) path_ok ?_ ?_ (by decide +kernel) path13
  · intro k xs ys k' _ hf e
    simp only [Option.some.injEq, Prod.mk.injEq] at e
    obtain ⟨rfl, rfl⟩ := e
    exact ⟨le_refl _, hf, subset_rfl⟩
  · rintro xs ys e x ⟨t, ht, hx⟩
    simp only [gsame, decide_eq_true_eq] at e
    have h1 : (freshT 0 t).1 ∈ ys.map fun t => (freshT 0 t).1 := by
      rw [← e]; exact List.mem_map_of_mem (f := fun t => (freshT 0 t).1) ht
    obtain ⟨t', ht', e'⟩ := List.mem_map.1 h1
    exact ⟨t', ht', by rw [← den_fresh pathI 0 t', e', den_fresh]; exact hx⟩

open Classical in
/-- `rewrites(·)` with the rule `b(X) ⇐ a(X)`, as a function, where it gives a type -/
noncomputable def abG : Cfg :=
  ⟨[], [], fun _ => none, .int 1, fun _ R =>
    if h : ∃ t : Ty, Rewrites.Call (Rewrites.env [(mkT "b" [.var 0], [mkT "a" [.var 0]])]) false true true R (.ty t.1 t.2) then .ty h.choose.1 h.choose.2 else .oof,
    fun _ _ _ => none, 3⟩

example (k : Nat) (R : Ty) (hd : Tm) (bd : List Tm) (hR : ∀ n ∈ tvars R, n ∉ ({0} : Finset Nat)) (e : abG.simp k R = .ty hd bd) :
    Den (Rewrites.std {mkT "a" [.con (.int 1)], mkT "b" [.con (.int 1)]}) R ⊆ Den (Rewrites.std {mkT "a" [.con (.int 1)], mkT "b" [.con (.int 1)]}) (hd, bd) := by
  refine (C61_rewrites (ui := true) (E := Rewrites.env [(mkT "b" [.var 0], [mkT "a" [.var 0]])]) (L := {0}) ?_ ?_ (fun k R h => ?_) (fun k R h => ?_)).1 k R hd bd hR e
  · exact Rewrites.env_apart (by simp [mkT]) (by simp [mkT]) (by simp)
  · refine Rewrites.std_model (by simp [Propagate.eqT, mkT, Propagate.fnc]) (by simp [Propagate.FAIL, mkT]) ?_
    intro r hr θ _ hb
    simp only [List.mem_singleton] at hr
    subst hr
    have h := hb (mkT "a" [.var 0]) (by simp)
    rcases h with ⟨a, h⟩ | ⟨a, h⟩ | ⟨a, h⟩ | h
    · simp [mkT, Propagate.eqT, Propagate.fnc] at h
    · simp [mkT, Rewrites.t1, Propagate.fnc] at h
    · simp [mkT, Rewrites.t1, Propagate.fnc] at h
    · simp [mkT] at h
      exact .inr (.inr (.inr (by simp [mkT, h])))
  · simp only [abG] at h ⊢
    split at h
    · next h1 => rw [dif_pos h1]; exact h1.choose_spec
    · exact absurd rfl h
  · simp only [abG] at h
    split at h <;> cases h

/-- the rules `n(X) += m(X)`, `f(X,Y) += n(X) * n(Y)`; the parameters of the types are `n` and `m` -/
def shP : List (WRule Nat) := [⟨mkT "n" [.var 3], [.sub (mkT "m" [.var 3])]⟩,
  ⟨mkT "f" [.var 3, .var 4], [.sub (mkT "n" [.var 3]), .sub (mkT "n" [.var 4])]⟩]

/-- **C61, limit.**  A rule for the functor of a type parameter makes the analysis unsound: a subgoal with this
functor is delayed, but not looked up (`lookup_vals` returns although the comment says `we fall thru`,
program.py:1308-1314), so nothing covers `f(1,1)` although `m(1)` holds. -/
theorem C61_shadowed :
    let I : Set Tm := {x | (∃ c, x = .con c) ∨ (∃ y, vars y = ∅ ∧ x = mkT "$free" [y]) ∨ x = mkT "m" [.con (.int 1)]}
    let g := cfg (toTypeProgram shP) [mkT "n" [.var 0], mkT "m" [.var 1], mkT "$free" [.var 2]] 3
    ∃ ch k, runBasic g 20 10 10 = some (ch, k) ∧ Derives shP I (mkT "f" [.con (.int 1), .con (.int 1)]) ∧
      ∀ t ∈ ch, mkT "f" [.con (.int 1), .con (.int 1)] ∉ Den I t := by
  intro I g
  refine ⟨[(mkT "n" [.var 16], [mkT "m" [.var 16]]), (mkT "f" [.var 17, .var 18], [mkT "n" [.var 17], mkT "n" [.var 18]]),
    (mkT "f" [.var 22, .var 23], [mkT "n" [.var 23], mkT "m" [.var 22]]), (mkT "f" [.var 26, .var 27], [mkT "n" [.var 26], mkT "m" [.var 27]])], 34,
    by decide +kernel, ?_, ?_⟩
  · let θ : Nat → GTm := fun _ => ⟨.con (.int 1), rfl⟩
    have h1 : Derives shP I (mkT "n" [.con (.int 1)]) := by
      have := Derives.rule (p := shP) (I := I) (r := shP[0]) θ (by simp [shP]) (fun t ht hn => by
        simp only [shP, List.getElem_cons_zero, List.mem_cons, Lit.sub.injEq, List.not_mem_nil, or_false] at ht
        subst ht
        exact (hn (by simp [gsub_eq, mkT, θ, I])).elim)
      simpa [gsub_eq, shP, mkT, θ] using this
    have := Derives.rule (p := shP) (I := I) (r := shP[1]) θ (by simp [shP]) (fun t ht hn => by
      simp only [shP, List.getElem_cons_succ, List.getElem_cons_zero, List.mem_cons, Lit.sub.injEq, List.not_mem_nil, or_false] at ht
      rcases ht with rfl | rfl <;> simpa [gsub_eq, mkT, θ] using h1)
    simpa [gsub_eq, shP, mkT, θ] using this
  · intro t ht hd
    obtain ⟨σ, h1, h2⟩ := mem_den.1 hd
    have hn : ∀ y, mkT "n" [y] ∉ I := by
      rintro y (⟨c, h⟩ | ⟨z, _, h⟩ | h) <;> simp [mkT] at h
    simp only [List.mem_cons, List.not_mem_nil, or_false] at ht
    rcases ht with rfl | rfl | rfl | rfl
    · simp [gsub_eq, mkT] at h2
    all_goals
      have := h1 _ List.mem_cons_self
      simp only [gsub_eq, mkT, sub_app, List.map_cons, List.map_nil, sub_con, sub_var] at this
      exact hn _ this

end TypeAn
end Verif
