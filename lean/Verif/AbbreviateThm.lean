/-
Property C68: abbreviation by types keeps the values.
-/
import Verif.Abbreviate
import Verif.PruneTypesThm
import Verif.AntiUnifyThm
import Verif.SemFold
import Verif.SlashSem

set_option linter.unusedSectionVars false
set_option linter.unusedSimpArgs false

namespace Verif
namespace Abbreviate
open Tm Heap Sem
open Rewrites (Ty Res)
open Solver (noHeap forEach)
open Unfold (Ops derefR freshR bval UserHead subRule gsub_sub bv_sub sub_ext_eq mem_rvars_sub freshR_spec derefR_evt isInput)
open Solver2 (Inst Ok Resp M M_congr M_zero M_list M_inst M_unbound M_noHeap ok_bindAll bindAll_none ok_noHeap)
open TypeAn (Callable freshT derefT)
open PruneTypes (sum_inst bval_none_iff user_hfn)
open Propagate (eqT)
variable {W : Type}

/-! ### Specification -/

/-- the item belongs to the type -/
def Sat (I : Set Tm) (t : Ty) (y : GTm) : Prop := ∃ φ : Nat → GTm, gsub φ t.1 = y ∧ ∀ c ∈ t.2, (gsub φ c).1 ∈ I

open Classical in
/-- the item that stands for `y` as an item of the type `t` -/
noncomputable def abbr (nm : Const) (t : Ty) (y : GTm) : GTm :=
  if h : ∃ φ : Nat → GTm, gsub φ t.1 = y then gsub h.choose (atom nm t) else y

open Classical in
/-- the value that a table of values of abbreviations gives to an item -/
noncomputable def dec [CSemi W] (ops : Ops) (nm : Nat → Const) (chart : List Ty) (w : GTm → W) (y : GTm) : W :=
  if bval (W := Nat) ops y.1 = none then (chart.zipIdx.map fun x => if Inst x.1.1 y then w (abbr (nm x.2) x.1 y) else 0).sum else w y

/-- a type without free variables, with the variables of its constraints in its head -/
structure TyOk (ops : Ops) (k : Nat) (t : Ty) : Prop where
  user : UserHead ops t.1
  vs : ∀ n ∈ vars t.1, n < k
  safe : ∀ c ∈ t.2, vars c ⊆ vars t.1
  free : ∀ c ∈ t.2, hfn c ≠ some (.str "$free")

/-- a constraint: a term whose functor is one of the constraints, or a builtin, but not `$free` or `=` -/
def Cst (ops : Ops) (con : Const → Prop) (c : Tm) : Prop :=
  ∃ s as, c = .app (.con s :: as) ∧ s ≠ .str "$free" ∧ s ≠ .str "=" ∧ (con s ∨ builtin ops c = true)

/-- what is assumed of `rewrites(·)` when merging is allowed: nothing is lost -/
structure Keeps (sp : Nat → Ty → Res) (ops : Ops) (con : Const → Prop) (I : Set Tm) (L : Finset Nat) : Prop where
  none : ∀ k R, (∀ n ∈ TypeAn.tvars R, n ∉ L) → (∀ c ∈ R.2, Cst ops con c ∨ (∃ a, c = .con a) ∨ ∃ n b, c = eqT (.var n) b) → sp k R = .none →
    ∀ θ : Nat → GTm, ¬ ∀ c ∈ R.2, (gsub θ c).1 ∈ I
  ty : ∀ k R hd bd, (∀ n ∈ TypeAn.tvars R, n ∉ L) → (∀ c ∈ R.2, Cst ops con c ∨ ∃ a, c = .con a) → sp k R = .ty hd bd →
    (∀ c ∈ bd, Cst ops con c ∧ vars c ⊆ TypeAn.tvars R) ∧ ∀ θ : Nat → GTm, (∀ c ∈ R.2, (gsub θ c).1 ∈ I) → ∀ c ∈ bd, (gsub θ c).1 ∈ I

/-- what is assumed of `rewrites(·)` when merging is not allowed: also, the head stays and nothing is added -/
structure Exact (sp : Nat → Ty → Res) (ops : Ops) (con : Const → Prop) (I : Set Tm) (L : Finset Nat) : Prop extends Keeps sp ops con I L where
  back : ∀ k R hd bd, (∀ n ∈ TypeAn.tvars R, n ∉ L) → (∀ c ∈ R.2, Cst ops con c ∨ ∃ a, c = .con a) → sp k R = .ty hd bd →
    hd = R.1 ∧ ∀ θ : Nat → GTm, (∀ c ∈ bd, (gsub θ c).1 ∈ I) → ∀ c ∈ R.2, (gsub θ c).1 ∈ I

/-- the chart, the names and the constraints; `L` are the variables of the propagation rules -/
structure Setting (g : Cfg) (con : Const → Prop) (I : Set Tm) (L : Finset Nat) (K : Nat) (chart : List Ty) : Prop where
  tys : ∀ t ∈ chart, TyOk g.types.ops K t
  cst : ∀ t ∈ chart, ∀ c ∈ t.2, Cst g.types.ops con c
  avoid : ∀ t ∈ chart, ∀ n ∈ vars t.1, n ∉ L
  low : ∀ n ∈ L, n < K
  one : ∀ a, .con a ∈ I
  eqs : ∀ a b, vars a = ∅ → vars b = ∅ → (eqT a b ∈ I ↔ a = b)
  names : ∀ i, g.name i ≠ .str "$free"
  inj : Function.Injective g.name
  ops : g.types.ops (.str "$free") = none ∧ g.types.ops (.str "=") = none
  simp : Keeps g.types.simp g.types.ops con I L
  simpNF : Exact g.simpNF g.types.ops con I L

open Classical in
/-- a table of values: a constraint has the value one if it holds and zero otherwise, and an abbreviation whose value
is not zero stands for an item of its type -/
structure Tab [CSemi W] (g : Cfg) (con : Const → Prop) (I : Set Tm) (chart : List Ty) (w : GTm → W) : Prop where
  typ : ∀ i t, chart[i]? = some t → ∀ y, Inst t.1 y → w (abbr (g.name i) t y) ≠ 0 → Sat I t y
  con : ∀ y : GTm, Cst g.types.ops con y.1 → w y = if y.1 ∈ I then 1 else 0
  zero : PruneTypes.BZero g.types.ops w

/-! ### Abbreviations -/

/-- matching a term with an instance of itself binds the variables of the term -/
theorem mgu_match {τ : Nat → Tm} {D : Finset Nat} (hD : ∀ n ∈ D, ∀ m ∈ vars (τ n), m ∉ D) : ∀ f : Nat,
    (∀ (x : Tm) (s s' : Heap), vars x ⊆ D → (∀ n u, s n = some u → n ∈ D ∧ u = τ n) → Subst.mguF f s x (x.sub τ) = some (some s') →
      (∀ n u, s' n = some u → n ∈ D ∧ u = τ n) ∧ (∀ n ∈ vars x, s' n = some (τ n)) ∧ ∀ n, s n ≠ none → s' n = s n) ∧
    (∀ (xs : List Tm) (s s' : Heap), (∀ x ∈ xs, vars x ⊆ D) → (∀ n u, s n = some u → n ∈ D ∧ u = τ n) →
      Subst.mguLF f s xs (xs.map (·.sub τ)) = some (some s') →
      (∀ n u, s' n = some u → n ∈ D ∧ u = τ n) ∧ (∀ x ∈ xs, ∀ n ∈ vars x, s' n = some (τ n)) ∧ ∀ n, s n ≠ none → s' n = s n) := by
  intro f
  induction f with
  | zero => exact ⟨fun x s s' _ _ e => by simp [Subst.mguF] at e, fun x s s' _ _ e => by simp [Subst.mguLF] at e⟩
  | succ f ih =>
    have hbind : ∀ (n : Nat) (s s' : Heap), n ∈ D → s n = none → (∀ n u, s n = some u → n ∈ D ∧ u = τ n) →
        Subst.mbindF f s n (τ n) = some (some s') →
        (∀ n u, s' n = some u → n ∈ D ∧ u = τ n) ∧ (∀ m ∈ vars (.var n), s' m = some (τ m)) ∧ ∀ n, s n ≠ none → s' n = s n := by
      intro n s s' hn hs0 hs e
      cases f with
      | zero => simp [Subst.mbindF] at e
      | succ f =>
        simp only [Subst.mbindF] at e
        split at e
        · cases e
        · simp at e
        · simp only [Option.some.injEq] at e
          subst e
          refine ⟨fun m u hm => ?_, fun m hm => ?_, fun m hm => ?_⟩
          · by_cases h : m = n
            · subst h
              simp only [Heap.upd, if_true, Option.some.injEq] at hm
              exact ⟨hn, hm.symm⟩
            · simp only [Heap.upd, if_neg h] at hm
              exact hs m u hm
          · simp only [vars_var, Finset.mem_singleton] at hm
            subst hm
            simp [Heap.upd]
          · by_cases h : m = n
            · subst h
              exact (hm hs0).elim
            · simp [Heap.upd, h]
    refine ⟨fun x s s' hx hs e => ?_, fun xs s s' hx hs e => ?_⟩
    · unfold Subst.mguF at e
      split at e
      · next hxy =>
        simp only [Option.some.injEq] at e
        subst e
        refine ⟨hs, fun n hn => ?_, fun _ _ => rfl⟩
        have h1 := hn
        rw [hxy] at h1
        obtain ⟨m, hm, h2⟩ := mem_vars_sub.1 h1
        exact (hD m (hx hm) n h2 (hx hn)).elim
      · next hxy =>
        cases x with
        | var n =>
          have hn : n ∈ D := hx (by simp)
          simp only [sub_var] at e
          cases hsn : s n with
          | some t =>
            rw [hsn] at e
            obtain ⟨_, rfl⟩ := hs n t hsn
            simp only at e
            cases f with
            | zero => simp [Subst.mguF] at e
            | succ f =>
              unfold Subst.mguF at e
              rw [if_pos rfl] at e
              simp only [Option.some.injEq] at e
              subst e
              exact ⟨hs, fun m hm => by simp only [vars_var, Finset.mem_singleton] at hm; subst hm; exact hsn, fun _ _ => rfl⟩
          | none =>
            rw [hsn] at e
            simp only at e
            refine hbind n s s' hn hsn hs ?_
            cases hτ : τ n with
            | var m =>
              rw [hτ] at e
              have hm : s m = none := by
                cases h : s m with
                | none => rfl
                | some u => exact (hD n hn m (by rw [hτ]; simp) (hs m u h).1).elim
              simpa [hm] using e
            | con c => rw [hτ] at e; simpa using e
            | app as => rw [hτ] at e; simpa using e
        | con c => exact (hxy rfl).elim
        | app as =>
          simp only [sub_app] at e
          rw [if_pos (by simp)] at e
          obtain ⟨h1, h2, h3⟩ := ih.2 as s s' (fun x hx' n hn => hx (by rw [vars_app]; exact mem_varsL.2 ⟨x, hx', hn⟩)) hs e
          refine ⟨h1, fun n hn => ?_, h3⟩
          rw [vars_app] at hn
          obtain ⟨x, hx', hn⟩ := mem_varsL.1 hn
          exact h2 x hx' n hn
    · cases xs with
      | nil =>
        simp only [List.map_nil, Subst.mguLF, Option.some.injEq] at e
        subst e
        exact ⟨hs, by simp, fun _ _ => rfl⟩
      | cons x xs =>
        simp only [List.map_cons, Subst.mguLF] at e
        split at e
        · cases e
        · simp at e
        · next s1 e1 =>
          obtain ⟨a1, a2, a3⟩ := ih.1 x s s1 (hx x (by simp)) hs e1
          obtain ⟨b1, b2, b3⟩ := ih.2 xs s1 s' (fun y hy => hx y (by simp [hy])) a1 e
          refine ⟨b1, fun y hy n hn => ?_, fun n hn => ?_⟩
          · rcases List.mem_cons.1 hy with rfl | hy
            · rw [b3 n (by rw [a2 n hn]; simp)]
              exact a2 n hn
            · exact b2 y hy n hn
          · rw [b3 n (by rw [a3 n hn]; exact hn), a3 n hn]

theorem termVars_spec (t : Tm) : (termVars t).Nodup ∧ ∀ n, n ∈ termVars t ↔ n ∈ vars t := by
  obtain ⟨ws, e, h1, h2, _⟩ := ren_nil id t
  unfold termVars
  rw [e]
  exact ⟨h1, h2⟩

theorem freebies_nil {cs : List Tm} (h : ∀ c ∈ cs, hfn c ≠ some (.str "$free")) : freebies cs = [] := by
  unfold freebies
  rw [List.filterMap_eq_nil_iff]
  intro c hc
  have := h c hc
  split
  · next x _ => simp [hfn] at this
  · rfl

theorem mem_kept {ops : Ops} {k : Nat} {t : Ty} (h : TyOk ops k t) {n : Nat} : n ∈ keptVars t ↔ n ∈ vars t.1 := by
  unfold keptVars
  rw [freebies_nil h.free, List.mem_filter, (termVars_spec _).2, vars_app, mem_varsL]
  simp only [List.not_mem_nil, not_false_eq_true, decide_true, and_true]
  constructor
  · rintro ⟨x, hx, hn⟩
    rcases List.mem_cons.1 hx with rfl | hx
    · exact hn
    · exact h.safe x hx hn
  · intro hn
    exact ⟨t.1, by simp, hn⟩

theorem atom_vars {ops : Ops} {k : Nat} {t : Ty} (h : TyOk ops k t) (nm : Const) : vars (atom nm t) = vars t.1 := by
  ext n
  unfold atom
  rw [vars_app, mem_varsL]
  simp only [List.mem_cons, List.mem_map]
  constructor
  · rintro ⟨x, rfl | ⟨m, hm, rfl⟩, hn⟩
    · simp at hn
    · simp only [vars_var, Finset.mem_singleton] at hn
      subst hn
      exact (mem_kept h).1 hm
  · intro hn
    exact ⟨.var n, .inr ⟨n, (mem_kept h).2 hn, rfl⟩, by simp⟩

theorem abbrevF_eq {ops : Ops} {k : Nat} {t : Ty} (h : TyOk ops k t) {f : Nat} {nm : Const} {τ : Nat → Tm}
    (hτ : ∀ n ∈ vars t.1, ∀ m ∈ vars (τ n), m ∉ vars t.1) {a : Tm} (e : abbrevF f nm t (t.1.sub τ) = some a) : a = (atom nm t).sub τ := by
  unfold abbrevF at e
  split at e
  · next s e1 =>
    obtain ⟨h1, h2, _⟩ := (mgu_match (D := vars t.1) hτ f).1 t.1 noHeap s (Finset.Subset.refl _) (by intro n u h; simp [noHeap] at h) e1
    rw [deref_eq_sub e]
    refine sub_congr fun n hn => ?_
    rw [atom_vars h] at hn
    -- the value of a bound variable has no bound variables
    obtain ⟨f', e'⟩ := Subst.deref_id (s := s) (τ n) fun m hm => by
      cases hs : s m with
      | none => rfl
      | some u => exact (hτ n hn m hm (h1 m u hs).1).elim
    have : derefF s (f' + 1) (.var n) = some (τ n) := by
      simp only [derefF, h2 n hn]
      exact e'
    exact res_of_deref this
  · cases e

theorem abbr_eq {ops : Ops} {k : Nat} {t : Ty} (h : TyOk ops k t) {nm : Const} {φ : Nat → GTm} {y : GTm} (e : gsub φ t.1 = y) :
    abbr nm t y = gsub φ (atom nm t) := by
  have hy : ∃ φ : Nat → GTm, gsub φ t.1 = y := ⟨φ, e⟩
  unfold abbr
  rw [dif_pos hy]
  refine gsub_congr fun n hn => ?_
  rw [atom_vars h] at hn
  exact gsub_inj.1 (hy.choose_spec.trans e.symm) n hn

section
variable [CSemi W]

/-! ### What a computation adds to the new rules -/

/-- a normal run of `b` from `h` restores the store and adds `X` to the step operator of the collected rules -/
def Adds (K : Nat) (w : GTm → W) (x : GTm) (V : Finset Nat) (h : Heap) (b : Body (List (WRule W) × Nat)) (X : W) : Prop :=
  ∀ s h' s', K ≤ s.2 → (∀ n ∈ V, n < s.2) → b h s = some (h', s', .done) → h' = h ∧ s.2 ≤ s'.2 ∧ T s'.1 w x = T s.1 w x + X

variable {K : Nat} {w : GTm → W} {x : GTm}

theorem Adds.congr {V : Finset Nat} {h : Heap} {b : Body (List (WRule W) × Nat)} {X Y : W} (a : Adds K w x V h b X) (e : X = Y) : Adds K w x V h b Y := e ▸ a

theorem forEach_adds {α : Type} {V : Finset Nat} {h : Heap} {b : α → Body (List (WRule W) × Nat)} {X : α → W} :
    ∀ {l : List α}, (∀ a ∈ l, Adds K w x V h (b a) (X a)) → Adds K w x V h (forEach l b) (l.map X).sum
  | [], _ => by
    intro s h' s' _ _ e
    simp only [forEach, Option.some.injEq, Prod.mk.injEq] at e
    obtain ⟨rfl, rfl, _⟩ := e
    exact ⟨rfl, le_refl _, by simp⟩
  | a :: l, ha => by
    intro s h' s' hK hk e
    simp only [forEach] at e
    split at e
    · cases e
    · rename_i h1 s1 e1
      obtain ⟨rfl, k1, d1⟩ := ha a (by simp) s h1 s1 hK hk e1
      obtain ⟨rfl, k2, d2⟩ := forEach_adds (l := l) (fun a h => ha a (by simp [h])) s1 h' s' (hK.trans k1) (fun n hn => (hk n hn).trans_le k1) e
      exact ⟨rfl, k1.trans k2, by rw [d2, d1]; simp [add_assoc]⟩
    · rename_i r hne _
      simp only [Option.some.injEq] at e
      subst e
      exact (hne _ _ rfl).elim

open Classical in
theorem unify_adds {f : Nat} {V : Finset Nat} {h : Heap} (o : Ok h V) {t u : Tm} (ht : vars t ⊆ V) (hu : vars u ⊆ V)
    {b : Body (List (WRule W) × Nat)} {F : (Nat → GTm) → W}
    (hk : ∀ h', Ok h' V → (∀ n, h' n = none → h n = none) → (∀ τ, Respects h' τ ↔ Respects h τ ∧ t.sub τ = u.sub τ) →
      Adds K w x V h' b (M h' V F)) :
    Adds K w x V h (unifyF f t u b) (M h V fun θ => if gsub θ t = gsub θ u then F θ else 0) := by
  intro s h' s' hK hV e
  obtain ⟨r, hsp, hrun⟩ := unify_run o.good t u
  have e2 := hrun _ _ _ _ e
  cases r with
  | none =>
    simp only [run, Option.some.injEq, Prod.mk.injEq] at e2
    obtain ⟨rfl, rfl, _⟩ := e2
    refine ⟨rfl, le_refl _, ?_⟩
    cases hsp with
    | fail hf =>
    rw [M_zero, add_zero]
    intro θ hθ
    exact if_neg fun he => hf _ hθ (sub_ext_eq.1 he)
  | some bs =>
    have o' := ok_bindAll o ht hu hsp
    cases hsp with
    | ok _ hg hr hn hd hv =>
    have hub : unbindAll bs (bindAll h bs) = h := unbindAll_bindAll hn fun p hp => by
      rcases Finset.mem_union.1 (hd p hp) with h2 | h2
      · exact o.good.vars_res h2
      · exact o.good.vars_res h2
    simp only [run] at e2
    split at e2
    · cases e2
    · rename_i h1 s1 sig e3
      simp only [Option.some.injEq, Prod.mk.injEq] at e2
      obtain ⟨rfl, rfl, rfl⟩ := e2
      obtain ⟨rfl, k1, d1⟩ := hk _ o' (fun n => bindAll_none) hr s h1 s1 hK hV e3
      refine ⟨hub, k1, ?_⟩
      rw [d1]
      congr 1
      unfold M
      refine isum_congr fun a => ?_
      have : Resp (bindAll h bs) (ext a) ↔ Resp h (ext a) ∧ gsub (ext a) t = gsub (ext a) u := by
        rw [sub_ext_eq]; exact hr _
      by_cases h1 : Resp h (ext a) <;> by_cases h2 : gsub (ext a) t = gsub (ext a) u <;> simp [this, h1, h2]

open Classical in
/-- adding a rule whose variables are the unbound ones -/
theorem addRule_adds {V : Finset Nat} {h : Heap} (o : Ok h V) {r : WRule W} (hr : rvars r = Unfold.unbound h V) :
    Adds K w x V h (addRule r) (M h V fun θ => if gsub θ r.head = x then bv w θ r.body else 0) := by
  intro s h' s' hK hV e
  unfold addRule at e
  simp only [Option.some.injEq, Prod.mk.injEq, and_true] at e
  obtain ⟨rfl, rfl⟩ := e
  obtain ⟨ρ, e2, hi, _, hle⟩ := freshR_spec s.2 r
  refine ⟨rfl, hle, ?_⟩
  have hsub : ∀ n ∈ rvars r, n ∈ V ∧ h n = none := fun n hn => by
    rw [hr] at hn
    simpa [Unfold.unbound] using hn
  rw [T_append, T_cons, T_nil, add_zero, e2, contrib_ren hi, M_unbound o]
  · congr 1
    rw [contrib_eq hr]
    refine isum_congr fun a => ?_
    have hθ : ∀ n ∈ rvars r, gsub (ext a) (res h n) = ext a n := fun n hn => by rw [res_unbound (hsub n hn).2]; simp [gsub]
    rw [gsub_congr (t := r.head) fun n hn => hθ n (by simp [rvars, hn]), bv_congr (b := r.body) fun n hn => hθ n (by simp [rvars, hn])]
  · intro θ φ hθ
    rw [gsub_congr (t := r.head) fun n hn => hθ n (hsub n (by simp [rvars, hn])).1, bv_congr (b := r.body) fun n hn => hθ n (hsub n (by simp [rvars, hn])).1]

/-! ### Look-ups -/

/-- what `lookup(q)` yields: a copy of a type of the chart whose head is unified with `q`, or a builtin -/
inductive From (ops : Ops) (chart : List Ty) (V : Finset Nat) (h : Heap) (q : Tm) : Option Nat → Ty → Prop
  | type {i : Nat} {ty t : Ty} (ρ : Nat → Nat) (hi : chart[i]? = some ty) (ht : t = (ty.1.sub fun n => .var (ρ n), ty.2.map (·.sub fun n => .var (ρ n))))
      (hρ : ∀ n ∈ vars ty.1, ρ n ∈ V) (hb : builtin ops q = false) (he : ∀ τ, Respects h τ → t.1.sub τ = q.sub τ) : From ops chart V h q (some i) t
  | blt {cs : List Tm} (hb : builtin ops q = true) (hcs : ∀ c ∈ cs, (c = q ∧ hfn q ≠ some (.str "=")) ∨ ∃ a, c = .con a) : From ops chart V h q none (q, cs)

theorem From.mono {ops : Ops} {chart : List Ty} {V V' : Finset Nat} {h h' : Heap} {q : Tm} {ix : Option Nat} {t : Ty} (hV : V ⊆ V')
    (hh : ∀ τ, Respects h' τ → Respects h τ) (a : From ops chart V h q ix t) : From ops chart V' h' q ix t := by
  cases a with
  | type ρ hi ht hρ hb he => exact .type ρ hi ht (fun n hn => hV (hρ n hn)) hb fun τ hτ => he τ (hh τ hτ)
  | blt hb hcs => exact .blt hb hcs

/-- the continuation adds `G ix`, whatever has been bound -/
def Cont (K : Nat) (w : GTm → W) (x : GTm) (ops : Ops) (chart : List Ty) (r : WRule W) (V : Finset Nat) (h : Heap) (q : Tm)
    (body : Option Nat → Ty → Body (List (WRule W) × Nat)) (G : Option Nat → (Nat → GTm) → W) : Prop :=
  ∀ ix t V' h', V ⊆ V' → (∀ n ∈ V', K ≤ n) → Ok h' V' → Solver2.Cov r h' V' → (∀ τ, Respects h' τ → Respects h τ) → From ops chart V' h' q ix t →
    Adds K w x V' h' (body ix t) (M h' V' (G ix))

theorem builtin_sub (ops : Ops) {c : Const} {as : List Tm} (σ : Nat → Tm) : builtin ops ((Tm.app (.con c :: as)).sub σ) = builtin ops (.app (.con c :: as)) := by
  rcases as with _ | ⟨a, _ | ⟨b, _ | ⟨d, as⟩⟩⟩ <;> simp [builtin]

theorem builtin_false {ops : Ops} {c : Const} {as : List Tm} (hne : ∀ o x y, ops c = some o → as = [x, y] → False)
    (hneq : ∀ x y, c = .str "=" → as = [x, y] → False) : builtin ops (.app (.con c :: as)) = false := by
  rcases as with _ | ⟨a, _ | ⟨b, _ | ⟨d, as⟩⟩⟩
  · rfl
  · rfl
  · have ho : ops c = none := by
      cases ho : ops c with
      | none => rfl
      | some o' => exact (hne o' a b ho rfl).elim
    have hce : c ≠ .str "=" := fun hce => hneq a b hce rfl
    simp [builtin, ho, hce]
  · rfl

theorem bval_builtin (ops : Ops) {c : Const} {as : List Tm} (θ : Nat → GTm) :
    bval (W := Nat) ops (gsub θ (.app (.con c :: as))).1 = none ↔ builtin ops (.app (.con c :: as)) = false := by
  rcases as with _ | ⟨a, _ | ⟨b, _ | ⟨d, as⟩⟩⟩
  · simp [gsub, bval, builtin]
  · simp [gsub, bval, builtin]
  · simp only [gsub, sub_app, List.map_cons, List.map_nil, sub_con, bval, builtin]
    cases ho : ops c with
    | some o => simp
    | none =>
      by_cases hc : c = .str "="
      · simp [hc]
      · simp [hc]
  · simp [gsub, bval, builtin]

open Classical in
theorem tryI_adds {ops : Ops} {k : Nat} {chart : List Ty} {f : Nat} {V : Finset Nat} {h : Heap} (o : Ok h V) (hlow : ∀ n ∈ V, K ≤ n) {r : WRule W}
    (hc : Solver2.Cov r h V) {q : Tm} (hq : vars q ⊆ V) (hqr : vars q ⊆ rvars r) (hb : builtin ops q = false)
    {body : Option Nat → Ty → Body (List (WRule W) × Nat)} {G : Option Nat → (Nat → GTm) → W}
    (hG : ∀ ix θ φ, (∀ n ∈ V, θ n = φ n) → G ix θ = G ix φ) (hk : Cont K w x ops chart r V h q body G) {ty : Ty} {i : Nat} (hi : chart[i]? = some ty)
    (hty : TyOk ops k ty) :
    Adds K w x V h (tryI f q body (ty, i)) (M h V fun θ => if Inst ty.1 (gsub θ q) then G (some i) θ else 0) := by
  intro s h' s' hK hV e
  unfold tryI at e
  obtain ⟨ρ, e1, hinj, hfr, hle⟩ := TypeAn.freshT_spec s.2 ty
  have hin : ∀ n ∈ vars ty.1, n ∈ TypeAn.tvars ty := fun n hn => TypeAn.mem_tvars.2 (.inl hn)
  set t := (freshT s.2 ty).1 with ht
  have et : t.1 = ty.1.sub fun n => .var (ρ n) := by rw [e1]
  have hvar : Variant ty.1 t.1 := ⟨ρ, hinj.mono hin, et⟩
  have hfresh : ∀ n ∈ vars t.1, s.2 ≤ n ∧ n < (freshT s.2 ty).2 := by
    intro n hn
    rw [et, mem_vars_sub] at hn
    obtain ⟨m, hm, hn⟩ := hn
    simp only [vars_var, Finset.mem_singleton] at hn
    subst hn
    exact hfr m (hin m hm)
  have hd : ∀ n ∈ vars t.1, n ∉ V := fun n hn hnV => absurd (hV n hnV) (by have := (hfresh n hn).1; omega)
  have o2 : Ok h (V ∪ vars t.1) := o.mono hd
  have hV2 : ∀ n ∈ V ∪ vars t.1, n < (freshT s.2 ty).2 := by
    intro n hn
    rcases Finset.mem_union.1 hn with h1 | h1
    · exact (hV n h1).trans_le hle
    · exact (hfresh n h1).2
  have hlow2 : ∀ n ∈ V ∪ vars t.1, K ≤ n := by
    intro n hn
    rcases Finset.mem_union.1 hn with h1 | h1
    · exact hlow n h1
    · exact hK.trans (hfresh n h1).1
  obtain ⟨e1', e2, e3⟩ := unify_adds (F := G (some i)) o2 Finset.subset_union_right (hq.trans Finset.subset_union_left)
    (fun h' o' hn hr => hk (some i) t _ h' Finset.subset_union_left hlow2 o' (by
      have hres := (hr _).1 o'.good.respects_res
      intro n hnV hn0
      rcases Finset.mem_union.1 hnV with h1 | h1
      · exact hc.step o.good o'.good hn hres.1 n h1 hn0
      · have : n ∈ vars (t.1.sub (res h')) := mem_vars_sub.2 ⟨n, h1, by rw [res_unbound hn0]; simp⟩
        rw [hres.2] at this
        obtain ⟨m, hm, hv⟩ := mem_vars_sub.1 this
        exact ⟨m, hqr hm, hv⟩) (fun τ hτ => ((hr τ).1 hτ).1)
      (.type ρ hi e1 (fun n hn => Finset.mem_union_right _ (by rw [et]; exact mem_vars_sub.2 ⟨n, hn, by simp⟩)) hb fun τ hτ => ((hr τ).1 hτ).2)) (s.1, _) _ _
      (hK.trans hle) hV2 e
  refine ⟨e1', hle.trans e2, ?_⟩
  rw [e3]
  congr 1
  rw [M_inst o hd hq (hG _)]
  refine M_congr fun θ _ => ?_
  simp only [← Solver2.inst_variant hvar]

theorem mem_zip {chart : List Ty} {y : Ty × Nat} (h : y ∈ chart.zipIdx) : chart[y.2]? = some y.1 := by
  obtain ⟨t, i⟩ := y
  exact List.mem_zipIdx_iff_getElem?.1 h

theorem mem_chart {chart : List Ty} {y : Ty × Nat} (h : y ∈ chart.zipIdx) : y.1 ∈ chart := List.mem_of_getElem? (mem_zip h)

open Classical in
/-- only the types with the functor of the query match -/
theorem sum_filter {ops : Ops} {chart : List Ty} (hS : ∀ t ∈ chart, UserHead ops t.1) (c : Const) (as : List Tm) (θ : Nat → GTm) (F : Ty × Nat → W) :
    ((chart.zipIdx.filter fun y => hfn y.1.1 == some c).map fun y => if Inst y.1.1 (gsub θ (.app (.con c :: as))) then F y else 0).sum =
      (chart.zipIdx.map fun y => if Inst y.1.1 (gsub θ (.app (.con c :: as))) then F y else 0).sum := by
  have key : ∀ l : List (Ty × Nat), (∀ y ∈ l, UserHead ops y.1.1) →
      ((l.filter fun y => hfn y.1.1 == some c).map fun y => if Inst y.1.1 (gsub θ (.app (.con c :: as))) then F y else 0).sum =
        (l.map fun y => if Inst y.1.1 (gsub θ (.app (.con c :: as))) then F y else 0).sum := by
    intro l hl
    induction l with
    | nil => rfl
    | cons y l ih =>
      have ih := ih fun z hz => hl z (by simp [hz])
      by_cases h : hfn y.1.1 = some c
      · rw [List.filter_cons_of_pos (by simpa using h), List.map_cons, List.map_cons, List.sum_cons, List.sum_cons, ih]
      · rw [List.filter_cons_of_neg (by simpa using h), List.map_cons, List.sum_cons, ih, if_neg, zero_add]
        rintro ⟨φ, hφ⟩
        obtain ⟨c', as', e, h1, _⟩ := user_hfn (hl y (by simp))
        rw [e] at hφ
        have := congrArg Subtype.val hφ
        simp only [gsub, sub_app, List.map_cons, sub_con, Tm.app.injEq, List.cons.injEq, Tm.con.injEq] at this
        exact h (by rw [h1, this.1])
  exact key _ fun y hy => hS _ (mem_chart hy)

open Classical in
/-- what a look-up adds -/
noncomputable def lookSum (ops : Ops) (chart : List Ty) (q : Tm) (G : Option Nat → (Nat → GTm) → W) (θ : Nat → GTm) : W :=
  if builtin ops q = true then G none θ else (chart.zipIdx.map fun y => if Inst y.1.1 (gsub θ q) then G (some y.2) θ else 0).sum

/-- an ordinary subgoal that is not a constraint -/
def Asked (g : TypeAn.Cfg) (q : Tm) : Prop := ∃ c as, q = .app (.con c :: as) ∧ ∀ p ∈ g.inputs, ∃ c' as', p = .app (.con c' :: as') ∧ c' ≠ c

theorem Asked.no {g : TypeAn.Cfg} {q : Tm} (a : Asked g q) {h : Heap} (hg : Good h) {f : Nat} : isInput f q h g.inputs ≠ some true := by
  intro e
  obtain ⟨p, hp, τ, _, h4⟩ := (TypeAn.isInput_val hg e).1 rfl
  obtain ⟨c, as, rfl, ha⟩ := a
  obtain ⟨c', as', rfl, hne⟩ := ha p hp
  simp only [sub_app, List.map_cons, sub_con, Tm.app.injEq, List.cons.injEq, Tm.con.injEq] at h4
  exact hne h4.1

open Classical in
theorem scan_adds {g : TypeAn.Cfg} {k : Nat} {chart : List Ty} (hS : ∀ t ∈ chart, TyOk g.ops k t) {f : Nat} {V : Finset Nat} {h : Heap} (o : Ok h V)
    (hlow : ∀ n ∈ V, K ≤ n) {r : WRule W} (hc : Solver2.Cov r h V) {c : Const} {as : List Tm} (hq : vars (.app (.con c :: as)) ⊆ V)
    (hqr : vars (.app (.con c :: as)) ⊆ rvars r) (hb : builtin g.ops (.app (.con c :: as)) = false)
    {body : Option Nat → Ty → Body (List (WRule W) × Nat)} {G : Option Nat → (Nat → GTm) → W}
    (hG : ∀ ix θ φ, (∀ n ∈ V, θ n = φ n) → G ix θ = G ix φ) (hk : Cont K w x g.ops chart r V h (.app (.con c :: as)) body G) :
    Adds K w x V h (forEach (chart.zipIdx.filter fun y => hfn y.1.1 == some c) (tryI f (.app (.con c :: as)) body))
      (M h V (lookSum g.ops chart (.app (.con c :: as)) G)) := by
  refine (forEach_adds (X := fun y => M h V fun θ => if Inst y.1.1 (gsub θ (.app (.con c :: as))) then G (some y.2) θ else 0) fun y hy => ?_).congr ?_
  · have hy := (List.mem_filter.1 hy).1
    exact tryI_adds o hlow hc hq hqr hb hG hk (mem_zip hy) (hS _ (mem_chart hy))
  · rw [M_list]
    refine M_congr fun θ _ => ?_
    unfold lookSum
    rw [hb, if_neg (by simp)]
    exact sum_filter (ops := g.ops) (fun t ht => (hS t ht).user) c as θ fun y => G (some y.2) θ

open Classical in
theorem lookI_adds {g : TypeAn.Cfg} {k : Nat} {chart : List Ty} (hS : ∀ t ∈ chart, TyOk g.ops k t) {f : Nat} {V : Finset Nat} {h : Heap} (o : Ok h V)
    (hlow : ∀ n ∈ V, K ≤ n) {r : WRule W} (hc : Solver2.Cov r h V) {q : Tm} (hcall : Asked g q) (hq : vars q ⊆ V)
    (hqr : vars q ⊆ rvars r) {body : Option Nat → Ty → Body (List (WRule W) × Nat)} {G : Option Nat → (Nat → GTm) → W}
    (hG : ∀ ix θ φ, (∀ n ∈ V, θ n = φ n) → G ix θ = G ix φ) (hk : Cont K w x g.ops chart r V h q body G)
    (h0 : ∀ θ, bval g.ops (gsub θ q).1 = some (0 : W) → G none θ = 0) (heq : g.ops (.str "=") = none) :
    Adds K w x V h (lookI g f chart q body) (M h V (lookSum g.ops chart q G)) := by
  have hno := fun f => hcall.no o.good (f := f)
  obtain ⟨c, as, rfl, hin⟩ := hcall
  have hgq : ∀ θ : Nat → GTm, (gsub θ (.app (.con c :: as))).1 = .app (.con c :: as.map (·.sub fun n => (θ n).1)) := fun θ => by simp [TypeAn.gsub_eq]
  have hbody : ∀ cs, builtin g.ops (.app (.con c :: as)) = true → (∀ d ∈ cs, (d = .app (.con c :: as) ∧ c ≠ .str "=") ∨ ∃ a, d = .con a) →
      Adds K w x V h (body none (.app (.con c :: as), cs)) (M h V (G none)) := fun cs hb hcs =>
    hk _ _ V h (Finset.Subset.refl _) hlow o hc (fun _ h => h) (.blt hb (by simpa [hfn] using hcs))
  intro s h' s' hK hV e
  unfold lookI at e
  cases f with
  | zero => simp [snapF] at e
  | succ f =>
    simp only [snapF] at e
    split at e
    · simp at e
    · split at e
      · cases e
      · next hi => exact (hno _ hi).elim
      · split at e
        · next a b ho _ =>
          have hb : builtin g.ops (.app [.con c, a, b]) = true := by simp [builtin, ho]
          have hce : c ≠ .str "=" := by rintro rfl; rw [heq] at ho; cases ho
          rw [M_congr (G := G none) fun θ _ => by unfold lookSum; rw [if_pos hb]]
          split at e
          · next a' b' g1 g2 d1 d2 =>
            split at e
            · exact hbody _ hb (by simp [hce]) s h' s' hK hV e
            · next hno =>
              simp only [Option.some.injEq, Prod.mk.injEq, and_true] at e
              obtain ⟨rfl, rfl⟩ := e
              refine ⟨rfl, le_refl _, ?_⟩
              rw [M_zero, add_zero]
              intro θ hθ
              apply h0
              rw [hgq]
              have ea := TypeAn.res_ground o.good hθ g1 d1
              have eb := TypeAn.res_ground o.good hθ g2 d2
              rw [TypeAn.gsub_eq] at ea eb
              simp only [List.map_cons, List.map_nil, bval, ho, ← ea, ← eb, if_neg hno]
          · split at e
            · cases e
            · next e1 =>
              obtain ⟨rfl, k1, d1⟩ := hbody _ hb (by simp [hce]) s _ _ hK hV e1
              have : (chart.zipIdx.filter fun y => hfn y.1.1 == some c) = [] := by
                rw [List.filter_eq_nil_iff]
                intro t ht
                obtain ⟨c', as', e', h1, h2, _⟩ := user_hfn (hS _ (mem_chart ht)).user
                rw [h1]
                simp only [beq_iff_eq, Option.some.injEq]
                rintro rfl
                rw [h2] at ho
                cases ho
              rw [this] at e
              simp only [forEach, Option.some.injEq, Prod.mk.injEq, and_true] at e
              obtain ⟨rfl, rfl⟩ := e
              exact ⟨rfl, k1, d1⟩
            · next r hne _ =>
              simp only [Option.some.injEq] at e
              subst e
              exact (hne _ _ rfl).elim
          · cases e
        · next hne _ =>
          split at e
          · next a b _ _ =>
            have ho : g.ops (.str "=") = none := by
              cases ho : g.ops (.str "=") with
              | none => rfl
              | some o' => exact (hne o' a b ho rfl).elim
            have hb : builtin g.ops (.app [.con (.str "="), a, b]) = true := by simp [builtin]
            have ha : vars a ⊆ V := fun n hn => hq (by simp [hn])
            have hb' : vars b ⊆ V := fun n hn => hq (by simp [hn])
            rw [M_congr (G := fun θ => if gsub θ a = gsub θ b then G none θ else 0) fun θ _ => by
              unfold lookSum
              rw [if_pos hb]
              split
              · rfl
              · next hab =>
                apply h0
                rw [hgq]
                have : ¬ (a.sub fun n => (θ n).1) = b.sub fun n => (θ n).1 := fun h => hab (Subtype.ext h)
                simp [bval, ho, this]]
            exact unify_adds o ha hb' (fun h' o' hn hr => hk _ _ _ h' (Finset.Subset.refl _) hlow o'
              (hc.step o.good o'.good hn ((hr _).1 o'.good.respects_res).1) (fun τ hτ => ((hr τ).1 hτ).1) (.blt hb (by simp))) s h' s' hK hV e
          · next hneq =>
            exact scan_adds hS o hlow hc hq hqr (builtin_false hne hneq) hG hk s h' s' hK hV e

/-- the value of the subgoal `q` for a choice of the look-up -/
noncomputable def lval (nm : Nat → Const) (chart : List Ty) (w : GTm → W) (q : Tm) (θ : Nat → GTm) : Option Nat → W
  | none => w (gsub θ q)
  | some i => match chart[i]? with
    | some ty => w (abbr (nm i) ty (gsub θ q))
    | none => 0

/-- the value of a body for a choice of the look-ups -/
noncomputable def pv (nm : Nat → Const) (chart : List Ty) (w : GTm → W) (θ : Nat → GTm) : List (Lit W) → List (Got W) → W
  | .val a :: b, .val _ :: ts => a * pv nm chart w θ b ts
  | .sub q :: b, .rule ix _ :: ts => lval nm chart w q θ ix * pv nm chart w θ b ts
  | _, _ => 1

/-- what the look-ups of a body yield -/
inductive Gots (ops : Ops) (chart : List Ty) (V : Finset Nat) (h : Heap) : List (Lit W) → List (Got W) → Prop
  | nil : Gots ops chart V h [] []
  | val {a : W} {b ts} : Gots ops chart V h b ts → Gots ops chart V h (.val a :: b) (.val a :: ts)
  | sub {q ix t b ts} : From ops chart V h q ix t → Gots ops chart V h b ts → Gots ops chart V h (.sub q :: b) (.rule ix t :: ts)

theorem Gots.mono {ops : Ops} {chart : List Ty} {V V' : Finset Nat} {h h' : Heap} (hV : V ⊆ V') (hh : ∀ τ, Respects h' τ → Respects h τ)
    {b : List (Lit W)} {ts : List (Got W)} (a : Gots ops chart V h b ts) : Gots ops chart V' h' b ts := by
  induction a with
  | nil => exact .nil
  | val _ ih => exact .val ih
  | sub hf _ ih => exact .sub (hf.mono hV hh) ih

theorem lookSum_dec {g : TypeAn.Cfg} {nm : Nat → Const} {chart : List Ty} {q : Tm} (hq : Asked g q) (A B : (Nat → GTm) → W) (θ : Nat → GTm) :
    lookSum g.ops chart q (fun ix θ => A θ * lval nm chart w q θ ix * B θ) θ = A θ * dec g.ops nm chart w (gsub θ q) * B θ := by
  classical
  obtain ⟨c, as, rfl, _⟩ := hq
  unfold lookSum dec
  by_cases hb : builtin g.ops (.app (.con c :: as)) = true
  · rw [if_pos hb, if_neg fun h => by rw [(bval_builtin g.ops θ).1 h] at hb; cases hb]
    rfl
  · rw [if_neg hb, if_pos ((bval_builtin g.ops θ).2 (by simpa using hb)), ← List.sum_map_mul_left, ← List.sum_map_mul_right]
    refine congrArg List.sum (List.map_congr_left fun y hy => ?_)
    split
    · simp only [lval, mem_zip hy]
    · simp

theorem mem_bv {b : List (Lit W)} {n : Nat} : n ∈ bodyVars b ↔ ∃ q, .sub q ∈ b ∧ n ∈ vars q := by
  induction b with
  | nil => simp [bodyVars]
  | cons l b ih =>
    cases l with
    | val a => simp [bodyVars, litVars, ih]
    | sub q =>
      simp only [bodyVars, litVars, Finset.mem_union, ih, List.mem_cons, Lit.sub.injEq]
      constructor
      · rintro (h | ⟨u, h1, h2⟩)
        · exact ⟨q, .inl rfl, h⟩
        · exact ⟨u, .inr h1, h2⟩
      · rintro ⟨u, rfl | h1, h2⟩
        · exact .inl h2
        · exact .inr ⟨u, h1, h2⟩

theorem lval_congr {nm : Nat → Const} {chart : List Ty} {q : Tm} {θ φ : Nat → GTm} (h : ∀ n ∈ vars q, θ n = φ n) (ix : Option Nat) :
    lval nm chart w q θ ix = lval nm chart w q φ ix := by
  cases ix with
  | none => simp only [lval, gsub_congr h]
  | some i => simp only [lval, gsub_congr h]

theorem joinI_adds {g : TypeAn.Cfg} {nm : Nat → Const} {k : Nat} {chart : List Ty} (hS : ∀ t ∈ chart, TyOk g.ops k t) (hz : PruneTypes.BZero g.ops w) (heq : g.ops (.str "=") = none) {f : Nat} {r : WRule W} :
    ∀ {b : List (Lit W)} {V : Finset Nat} {h : Heap} (_ : Ok h V) (_ : ∀ n ∈ V, K ≤ n) (_ : Solver2.Cov r h V)
      (_ : ∀ q, .sub q ∈ b → Asked g q ∧ vars q ⊆ V ∧ vars q ⊆ rvars r) {body : List (Got W) → Body (List (WRule W) × Nat)} {A : (Nat → GTm) → W}
      (_ : ∀ θ φ, (∀ n ∈ V, θ n = φ n) → A θ = A φ)
      (_ : ∀ ts V' h', V ⊆ V' → (∀ n ∈ V', K ≤ n) → Ok h' V' → Solver2.Cov r h' V' → (∀ τ, Respects h' τ → Respects h τ) → Gots g.ops chart V' h' b ts →
        Adds K w x V' h' (body ts) (M h' V' fun θ => A θ * pv nm chart w θ b ts)),
      Adds K w x V h (joinI g f chart b body) (M h V fun θ => A θ * bv (dec g.ops nm chart w) θ b)
  | [], V, h, o, hlow, hc, _, body, A, hA, hk => by
    have := hk [] V h (Finset.Subset.refl _) hlow o hc (fun _ h => h) .nil
    simpa [joinI, bv_nil, pv] using this
  | .val a :: b, V, h, o, hlow, hc, hq, body, A, hA, hk => by
    rw [M_congr (G := fun θ => (A θ * a) * bv (dec g.ops nm chart w) θ b) fun θ _ => by rw [bv_cons, ← mul_assoc]; rfl]
    refine joinI_adds hS hz heq (b := b) o hlow hc (fun q hq' => hq q (by simp [hq'])) (fun θ φ h => by rw [hA θ φ h]) fun ts V' h' h1 h2 h3 h4 h5 h6 => ?_
    refine (hk (.val a :: ts) V' h' h1 h2 h3 h4 h5 (.val h6)).congr (M_congr fun θ _ => ?_)
    simp only [pv, mul_assoc]
  | .sub q :: b, V, h, o, hlow, hc, hq, body, A, hA, hk => by
    obtain ⟨q1, q2, q3⟩ := hq q (by simp)
    rw [M_congr (G := lookSum g.ops chart q fun ix θ => A θ * lval nm chart w q θ ix * bv (dec g.ops nm chart w) θ b) fun θ _ => by
      rw [lookSum_dec q1, bv_cons, ← mul_assoc]; rfl]
    refine lookI_adds hS o hlow hc q1 q2 q3 (fun ix θ φ h => ?_) (fun ix t V' h' h1 h2 h3 h4 h5 h6 => ?_) (fun θ h0 => ?_) ?_
    · rw [hA θ φ h, lval_congr fun n hn => h n (q2 hn), bv_congr fun n hn => ?_]
      obtain ⟨q', hq', hn⟩ := mem_bv.1 hn
      exact h n ((hq q' (by simp [hq'])).2.1 hn)
    · refine joinI_adds hS hz heq (b := b) h3 h2 h4 (fun q' hq' => ?_) (fun θ φ h => ?_) fun ts V2 h2' a1 a2 a3 a4 a5 a6 => ?_
      · have := hq q' (by simp [hq'])
        exact ⟨this.1, this.2.1.trans h1, this.2.2⟩
      · rw [hA θ φ fun n hn => h n (h1 hn), lval_congr fun n hn => h n (h1 (q2 hn))]
      · refine (hk (.rule ix t :: ts) V2 h2' (h1.trans a1) a2 a3 a4 (fun τ hτ => h5 τ (a5 τ hτ)) (.sub (h6.mono a1 a5) a6)).congr (M_congr fun θ _ => ?_)
        simp only [pv, mul_assoc]
    · simp only [lval]
      rw [hz _ h0]
      simp
    · exact heq

theorem pv_congr {nm : Nat → Const} {chart : List Ty} {θ φ : Nat → GTm} : ∀ {b : List (Lit W)} {ts : List (Got W)}, (∀ n ∈ bodyVars b, θ n = φ n) →
    pv nm chart w θ b ts = pv nm chart w φ b ts
  | [], [], _ => rfl
  | [], _ :: _, _ => rfl
  | .val _ :: _, [], _ => rfl
  | .sub _ :: _, [], _ => rfl
  | .val _ :: _, .rule _ _ :: _, _ => rfl
  | .sub _ :: _, .val _ :: _, _ => rfl
  | .val a :: b, .val _ :: ts, h => by
    simp only [pv]
    rw [pv_congr fun n hn => h n (by simp [bodyVars, hn])]
  | .sub q :: b, .rule ix _ :: ts, h => by
    simp only [pv]
    rw [pv_congr fun n hn => h n (by simp [bodyVars, hn]), lval_congr fun n hn => h n (by simp [bodyVars, litVars, hn])]

/-! ### The new literals -/

theorem gsub_res {h : Heap} (hg : Good h) {θ : Nat → GTm} (hr : Resp h θ) (t : Tm) : gsub θ (t.sub (res h)) = gsub θ t := Subtype.ext (hg.sub_res hr t)

/-- the abbreviation of a term that has been looked up -/
theorem abbrev_lit {ops : Ops} {chart : List Ty} (hS : ∀ t ∈ chart, TyOk ops K t) {V : Finset Nat} {h : Heap} (o : Ok h V) (hlow : ∀ n ∈ V, K ≤ n)
    {q : Tm} {i : Nat} {t : Ty} (hf : From ops chart V h q (some i) t) {ty : Ty} (hi : chart[i]? = some ty) {f : Nat} {nm : Nat → Const} {a : Tm}
    (e : abbrevF f (nm i) ty (q.sub (res h)) = some a) :
    vars a = vars (q.sub (res h)) ∧ hfn a = some (nm i) ∧ ∀ θ, Resp h θ → gsub θ a = abbr (nm i) ty (gsub θ q) := by
  cases hf with
  | @type _ ty' _ ρ hi' ht hρ hb he =>
  rw [hi] at hi'
  cases hi'
  have hty := hS ty (List.mem_of_getElem? hi)
  have hq : q.sub (res h) = ty.1.sub fun n => res h (ρ n) := by
    rw [← he _ o.good.respects_res, ht, sub_sub]
    simp
  rw [hq] at e ⊢
  have ha := abbrevF_eq hty (fun n hn m hm hm' => by
    have := hlow m (o.closed _ (hρ n hn) hm)
    have := hty.vs m hm'
    omega) e
  subst ha
  refine ⟨?_, by simp [atom, hfn], fun θ hθ => ?_⟩
  · ext n
    simp only [mem_vars_sub, atom_vars hty]
  · rw [abbr_eq hty (φ := fun n => gsub θ (res h (ρ n))), gsub_sub]
    rw [← gsub_sub, ← hq, gsub_res o.good hθ]

theorem builtin_user {ops : Ops} {q : Tm} (hb : builtin ops q = true) : ∃ c a b, q = .app [.con c, a, b] ∧ (ops c ≠ none ∨ c = .str "=") := by
  unfold builtin at hb
  split at hb
  · next c a b =>
    refine ⟨c, a, b, rfl, ?_⟩
    simp only [Bool.or_eq_true, beq_iff_eq] at hb
    refine hb.imp (fun h h0 => by rw [h0] at h; cases h) id
  · cases hb

theorem abbrevGot_eq {g : Cfg} {chart : List Ty} (hS : ∀ t ∈ chart, TyOk g.types.ops K t) {V : Finset Nat} {h : Heap} (o : Ok h V) (hlow : ∀ n ∈ V, K ≤ n)
    {q : Tm} (hq : Asked g.types q) {ix : Option Nat} {t : Ty} (hf : From g.types.ops chart V h q ix t) {f : Nat} {l : Lit W}
    (e : abbrevGot g f chart h (.rule ix t) = some l) :
    ∃ u, l = .sub u ∧ vars u = vars (q.sub (res h)) ∧ (builtin g.types.ops u = true ∨ ∃ i, hfn u = some (g.name i)) ∧
      ∀ θ, Resp h θ → w (gsub θ u) = lval g.name chart w q θ ix := by
  obtain ⟨c, as, rfl, _⟩ := hq
  have hbs := builtin_sub g.types.ops (c := c) (as := as) (res h)
  simp only [abbrevGot] at e
  split at e
  · cases e
  · next u e1 =>
    have e1 := deref_eq_sub e1
    cases hf with
    | blt hb hcs =>
      subst e1
      rw [hbs, hb, if_pos rfl] at e
      simp only [Option.some.injEq] at e
      exact ⟨_, e.symm, rfl, .inl (hbs.trans hb), fun θ hθ => by simp only [lval, gsub_res o.good hθ]⟩
    | @type i ty _ ρ hi ht hρ hb he =>
      have hu : u = (Tm.app (.con c :: as)).sub (res h) := by rw [e1, he _ o.good.respects_res]
      rw [hu, hbs, hb, if_neg (by simp)] at e
      simp only [hi] at e
      rw [Option.map_eq_some_iff] at e
      obtain ⟨a, ea, rfl⟩ := e
      obtain ⟨a1, a2, a3⟩ := abbrev_lit hS o hlow (.type ρ hi ht hρ hb he) hi ea
      exact ⟨a, rfl, a1, .inr ⟨i, a2⟩, fun θ hθ => by simp only [lval, hi, a3 θ hθ]⟩

/-- the literals of the new body: their variables, their functors and their value -/
theorem body_eq {g : Cfg} {chart : List Ty} (hS : ∀ t ∈ chart, TyOk g.types.ops K t) {V : Finset Nat} {h : Heap} (o : Ok h V) (hlow : ∀ n ∈ V, K ≤ n)
    {f : Nat} {b : List (Lit W)} {ts : List (Got W)} (hg : Gots g.types.ops chart V h b ts) : ∀ {bs : List (Lit W)}, (∀ q, .sub q ∈ b → Asked g.types q) →
    allSome (ts.map (abbrevGot g f chart h)) = some bs →
    (∀ n, n ∈ bodyVars bs ↔ ∃ m ∈ bodyVars b, n ∈ vars (res h m)) ∧
      (∀ u ∈ subs bs, builtin g.types.ops u = true ∨ ∃ i, hfn u = some (g.name i)) ∧
      ∀ θ, Resp h θ → bv w θ bs = pv g.name chart w θ b ts := by
  induction hg with
  | nil =>
    intro bs _ e
    simp only [List.map_nil, allSome, Option.some.injEq] at e
    subst e
    simp [bodyVars, subs, bv_nil, pv]
  | @val a b ts _ ih =>
    intro bs hq e
    rw [allSome_eq_some] at e
    cases bs with
    | nil => simp at e
    | cons l bs =>
      simp only [List.map_cons, List.cons.injEq, abbrevGot, Option.some.injEq] at e
      obtain ⟨rfl, e⟩ := e
      obtain ⟨h1, h2, h3⟩ := ih (fun q h => hq q (by simp [h])) (allSome_eq_some.2 e)
      refine ⟨fun n => by simpa [bodyVars, litVars] using h1 n, fun u hu => h2 u (by simpa [subs] using hu), fun θ hθ => ?_⟩
      rw [bv_cons, h3 θ hθ]
      rfl
  | @sub q ix t b ts hf _ ih =>
    intro bs hq e
    rw [allSome_eq_some] at e
    cases bs with
    | nil => simp at e
    | cons l bs =>
      simp only [List.map_cons, List.cons.injEq] at e
      obtain ⟨el, e⟩ := e
      obtain ⟨h1, h2, h3⟩ := ih (fun q h => hq q (by simp [h])) (allSome_eq_some.2 e)
      obtain ⟨u, rfl, u1, u2, u3⟩ := abbrevGot_eq (w := w) hS o hlow (hq q (by simp)) hf el
      refine ⟨fun n => ?_, fun v hv => ?_, fun θ hθ => ?_⟩
      · simp only [bodyVars, litVars, Finset.mem_union, h1, u1, mem_vars_sub]
        constructor
        · rintro (⟨m, a, b⟩ | ⟨m, a, b⟩)
          · exact ⟨m, .inl a, b⟩
          · exact ⟨m, .inr a, b⟩
        · rintro ⟨m, a | a, b⟩
          · exact .inl ⟨m, a, b⟩
          · exact .inr ⟨m, a, b⟩
      · simp only [subs, List.filterMap_cons, List.mem_cons] at hv
        rcases hv with rfl | hv
        · exact u2
        · exact h2 v hv
      · rw [bv_cons, h3 θ hθ]
        simp only [pv, lv, u3 θ hθ]

/-! ### The rules -/

variable {g : Cfg} {con : Const → Prop} {I : Set Tm} {L : Finset Nat} {chart : List Ty}

theorem Cst.sub {ops : Ops} {c : Tm} (h : Cst ops con c) (σ : Nat → Tm) : Cst ops con (c.sub σ) := by
  obtain ⟨s, as, rfl, h1, h1', h2⟩ := h
  exact ⟨s, as.map (·.sub σ), by simp, h1, h1', h2.imp id fun h => by rw [builtin_sub]; exact h⟩

theorem Cst.free {ops : Ops} {c : Tm} (h : Cst ops con c) : hfn c ≠ some (.str "$free") := by
  obtain ⟨s, as, rfl, h1, _⟩ := h
  simpa [hfn] using h1

theorem sat_from (st : Setting g con I L K chart) {V : Finset Nat} {h : Heap} {q : Tm} {i : Nat} {t : Ty} (hf : From g.types.ops chart V h q (some i) t)
    {ty : Ty} (hi : chart[i]? = some ty) {θ : Nat → GTm} (hθ : Resp h θ) : Inst ty.1 (gsub θ q) ∧ (Sat I ty (gsub θ q) ↔ ∀ c ∈ t.2, (gsub θ c).1 ∈ I) := by
  cases hf with
  | @type _ ty' _ ρ hi' ht hρ hb he =>
  rw [hi] at hi'
  cases hi'
  have hty := st.tys ty (List.mem_of_getElem? hi)
  have hq : gsub (fun n => θ (ρ n)) ty.1 = gsub θ q := by
    have h1 : gsub θ t.1 = gsub θ q := Subtype.ext (he _ hθ)
    rw [← h1, ht, gsub_sub]
    simp [gsub]
  have hcs : (∀ c ∈ t.2, (gsub θ c).1 ∈ I) ↔ ∀ c ∈ ty.2, (gsub (fun n => θ (ρ n)) c).1 ∈ I := by
    rw [ht]
    simp only [List.forall_mem_map, gsub_sub]
    simp [gsub]
  refine ⟨⟨_, hq⟩, ?_⟩
  rw [hcs]
  constructor
  · rintro ⟨φ, e, hφ⟩ c hc
    rw [gsub_congr (φ := φ) fun n hn => ?_]
    · exact hφ c hc
    · exact gsub_inj.1 (hq.trans e.symm) n (hty.safe c hc hn)
  · intro hc
    exact ⟨_, hq, hc⟩

theorem from_cst (st : Setting g con I L K chart) {V : Finset Nat} {h : Heap} {q : Tm} (hq : Asked g.types q) (hqV : vars q ⊆ V) {ix : Option Nat} {t : Ty}
(hf : From g.types.ops chart V h q ix t) : ∀ c ∈ t.2, (Cst g.types.ops con c ∨ ∃ a, c = .con a) ∧ vars c ⊆ V := by
  cases hf with
  | @type i ty _ ρ hi ht hρ _ he =>
    subst ht
    intro c hc
    obtain ⟨d, hd, rfl⟩ := List.mem_map.1 hc
    have hmem := List.mem_of_getElem? hi
    refine ⟨.inl ((st.cst ty hmem d hd).sub _), fun n hn => ?_⟩
    obtain ⟨m, hm, hn⟩ := mem_vars_sub.1 hn
    simp only [vars_var, Finset.mem_singleton] at hn
    subst hn
    exact hρ m ((st.tys ty hmem).safe d hd hm)
  | blt hb' hcs =>
    intro c hc
    rcases hcs c hc with ⟨rfl, hne⟩ | ⟨a, rfl⟩
    · obtain ⟨s, as, rfl, _⟩ := hq
      refine ⟨.inl ⟨s, as, rfl, ?_, by simpa [hfn] using hne, .inr hb'⟩, hqV⟩
      rintro rfl
      obtain ⟨c', a, b, e, h1⟩ := builtin_user hb'
      simp only [Tm.app.injEq, List.cons.injEq, Tm.con.injEq] at e
      rw [← e.1] at h1
      rcases h1 with h1 | h1
      · exact h1 st.ops.1
      · simp at h1
    · exact ⟨.inr ⟨a, rfl⟩, by simp⟩

theorem gots_cst (st : Setting g con I L K chart) {V : Finset Nat} {h : Heap} {b : List (Lit W)} {ts : List (Got W)} (hg : Gots g.types.ops chart V h b ts) :
    (∀ q, .sub q ∈ b → Asked g.types q ∧ vars q ⊆ V) → ∀ c ∈ constraints ts, (Cst g.types.ops con c ∨ ∃ a, c = .con a) ∧ vars c ⊆ V := by
  induction hg with
  | nil => simp [constraints]
  | val _ ih => intro hq; exact ih fun q h => hq q (by simp [h])
  | sub hf _ ih =>
    intro hq c hc
    simp only [constraints, List.mem_append] at hc
    rcases hc with hc | hc
    · exact from_cst st (hq _ (by simp)).1 (hq _ (by simp)).2 hf c hc
    · exact ih (fun q h => hq q (by simp [h])) c hc

/-- a body whose value is not zero meets the constraints of its types -/
theorem pv_ne (st : Setting g con I L K chart) (hw : Tab g con I chart w) {V : Finset Nat} {h : Heap} {b : List (Lit W)} {ts : List (Got W)}
    (hg : Gots g.types.ops chart V h b ts) {θ : Nat → GTm} (hθ : Resp h θ) : (∀ q, .sub q ∈ b → Asked g.types q) →
    pv g.name chart w θ b ts ≠ 0 → ∀ c ∈ constraints ts, (gsub θ c).1 ∈ I := by
  classical
  induction hg with
  | nil => simp [constraints]
  | val _ ih =>
    intro hq hne
    exact ih (fun q h => hq q (by simp [h])) (right_ne_zero_of_mul hne)
  | @sub q ix t b ts hf _ ih =>
    intro hq hne c hc
    have hl : lval g.name chart w q θ ix ≠ 0 := left_ne_zero_of_mul hne
    simp only [constraints, List.mem_append] at hc
    rcases hc with hc | hc
    · cases ix with
      | some i =>
        cases hf with
        | @type _ ty _ ρ hi ht hρ hb he =>
        have hs := sat_from st (.type ρ hi ht hρ hb he) hi hθ
        simp only [lval, hi] at hl
        exact hs.2.1 (hw.typ i ty hi _ hs.1 hl) c hc
      | none =>
        have hcst := from_cst st (V := Finset.univ.biUnion fun _ : Unit => vars q) (h := h) (hq q (by simp)) (by simp) (ix := none) (t := t) (by
          cases hf with
          | blt hb hcs => exact .blt hb hcs)
        cases hf with
        | blt hb hcs =>
        rcases hcs c hc with ⟨rfl, _⟩ | ⟨a, rfl⟩
        · rcases (hcst c hc).1 with h1 | ⟨a, h1⟩
          · by_contra hI
            apply hl
            simp only [lval]
            rw [hw.con _ (by simpa [gsub] using h1.sub fun n => (θ n).1), if_neg hI]
          · rw [h1]; exact st.one a
        · exact st.one a
    · exact ih (fun q h => hq q (by simp [h])) (right_ne_zero_of_mul hne) c hc

open Classical in
theorem bv_cst (hw : Tab g con I chart w) {θ : Nat → GTm} : ∀ {l : List Tm}, (∀ c ∈ l, Cst g.types.ops con c) →
    bv w θ (l.map .sub) = if ∀ c ∈ l, (gsub θ c).1 ∈ I then 1 else 0
  | [], _ => by simp [bv_nil]
  | c :: l, h => by
    rw [List.map_cons, bv_cons, bv_cst hw fun d hd => h d (by simp [hd])]
    simp only [lv]
    rw [hw.con _ (by simpa [gsub] using (h c (by simp)).sub fun n => (θ n).1)]
    by_cases h1 : (gsub θ c).1 ∈ I <;> simp [h1]

theorem lost_false {hd hd' : Tm} {cs cs' : List Tm} (h : ∀ c ∈ cs, hfn c ≠ some (.str "$free")) (h' : ∀ c ∈ cs', hfn c ≠ some (.str "$free")) :
    lost hd hd' cs cs' = false := by
  simp [lost, locals, freebies_nil h, freebies_nil h']

open Classical in
theorem closeHead_adds (st : Setting g con I L K chart) (hw : Tab g con I chart w) {f : Nat} {inf : W} {r : WRule W} {V : Finset Nat} {h : Heap} (o : Ok h V)
    (hlow : ∀ n ∈ V, K ≤ n) (hc : Solver2.Cov r h V) (hr : rvars r ⊆ V) (hrr : vars r.head ⊆ bodyVars r.body) (hask : ∀ q, .sub q ∈ r.body → Asked g.types q)
    {ts : List (Got W)} (hg : Gots g.types.ops chart V h r.body ts) {cl : Ty} (hcl : ∀ c ∈ cl.2, Cst g.types.ops con c ∧ vars c ⊆ V)
    (hcl2 : ∀ θ, Resp h θ → (∀ c ∈ constraints ts, (gsub θ c).1 ∈ I) → ∀ c ∈ cl.2, (gsub θ c).1 ∈ I)
    {i : Nat} {t ty : Ty} (hf : From g.types.ops chart V h r.head (some i) t) (hi : chart[i]? = some ty) :
    Adds K w x V h (closeHead g f chart inf r ts cl (some i) t)
      (M h V fun θ => (if Sat I ty (gsub θ r.head) ∧ abbr (g.name i) ty (gsub θ r.head) = x then 1 else 0) * pv g.name chart w θ r.body ts) := by
  intro s h' s' hK hV e
  unfold closeHead at e
  split at e
  · next R cl' e1 e2 =>
    obtain rfl := TypeAn.derefT_eq e1
    obtain rfl := TypeAn.derefT_eq e2
    have hhV : vars r.head ⊆ V := Finset.subset_union_left.trans hr
    have hfc : ∀ c ∈ t.2, (Cst g.types.ops con c ∨ ∃ a, c = .con a) ∧ vars c ⊆ V := by
      cases hf with
      | @type _ ty' _ ρ hi' ht hρ hb he =>
        subst ht
        intro c hc
        obtain ⟨d, hd, rfl⟩ := List.mem_map.1 hc
        have hmem := List.mem_of_getElem? hi'
        refine ⟨.inl ((st.cst ty' hmem d hd).sub _), fun n hn => ?_⟩
        obtain ⟨m, hm, hn⟩ := mem_vars_sub.1 hn
        simp only [vars_var, Finset.mem_singleton] at hn
        subst hn
        exact hρ m ((st.tys ty' hmem).safe d hd hm)
    have hRV : ∀ n ∈ TypeAn.tvars (r.head.sub (res h), (t.2 ++ cl.2).map (·.sub (res h))), n ∈ V ∧ h n = none := by
      intro n hn
      rcases TypeAn.mem_tvars.1 hn with hn | ⟨c, hc, hn⟩
      · exact ⟨o.sub hhV hn, o.good.vars_res hn⟩
      · obtain ⟨d, hd, rfl⟩ := List.mem_map.1 hc
        refine ⟨o.sub ?_ hn, o.good.vars_res hn⟩
        rcases List.mem_append.1 hd with hd | hd
        · exact (hfc d hd).2
        · exact (hcl d hd).2
    have hRK : ∀ n ∈ TypeAn.tvars (r.head.sub (res h), (t.2 ++ cl.2).map (·.sub (res h))), n ∉ L := fun n hn hl =>
      absurd (hlow n (hRV n hn).1) (Nat.not_le.2 (st.low n hl))
    have hRC : ∀ c ∈ (t.2 ++ cl.2).map (·.sub (res h)), Cst g.types.ops con c ∨ ∃ a, c = .con a := by
      intro c hc
      obtain ⟨d, hd, rfl⟩ := List.mem_map.1 hc
      rcases List.mem_append.1 hd with hd | hd
      · exact (hfc d hd).1.imp (fun h => h.sub _) (by rintro ⟨a, rfl⟩; exact ⟨a, by simp⟩)
      · exact .inl ((hcl d hd).1.sub _)
    have hRI : ∀ θ, Resp h θ → ((∀ c ∈ (t.2 ++ cl.2).map (·.sub (res h)), (gsub θ c).1 ∈ I) ↔
        (∀ c ∈ t.2, (gsub θ c).1 ∈ I) ∧ ∀ c ∈ cl.2, (gsub θ c).1 ∈ I) := by
      intro θ hθ
      simp only [List.forall_mem_map, gsub_res o.good hθ, List.mem_append]
      constructor
      · exact fun h => ⟨fun c hc => h c (.inl hc), fun c hc => h c (.inr hc)⟩
      · rintro ⟨h1, h2⟩ c (hc | hc)
        · exact h1 c hc
        · exact h2 c hc
    split at e
    · cases e
    · cases e
    · next e3 =>
      simp only [Option.some.injEq, Prod.mk.injEq, and_true] at e
      obtain ⟨rfl, rfl⟩ := e
      refine ⟨rfl, le_refl _, ?_⟩
      rw [M_zero, add_zero]
      intro θ hθ
      by_cases hp : pv g.name chart w θ r.body ts = 0
      · rw [hp, mul_zero]
      · rw [if_neg, zero_mul]
        rintro ⟨hsat, _⟩
        exact st.simpNF.none _ _ hRK (fun c hc => (hRC c hc).imp id .inl) e3 θ ((hRI θ hθ).2 ⟨(sat_from st hf hi hθ).2.1 hsat, hcl2 θ hθ (pv_ne st hw hg hθ hask hp)⟩)
    · next hd bd e3 =>
      simp only [hi] at e
      obtain ⟨hbd, hfw⟩ := st.simpNF.ty _ _ _ _ hRK hRC e3
      obtain ⟨rfl, hbk⟩ := st.simpNF.back _ _ _ _ hRK hRC e3
      split at e
      · next hd' bs e4 e5 =>
        obtain ⟨a1, a2, a3⟩ := abbrev_lit st.tys o hlow hf hi e4
        obtain ⟨b1, b2, b3⟩ := body_eq (w := w) st.tys o hlow hg hask e5
        set ex := (bd.filter fun c => decide (c ∉ cl.2.map (·.sub (res h)))).dedup with hex
        have hmem : ∀ c, c ∈ ex ↔ c ∈ bd ∧ c ∉ cl.2.map (·.sub (res h)) := fun c => by simp [hex]
        have hlost : lost (cl.1.sub (res h)) hd' (cl.2.map (·.sub (res h))) (subs (bs ++ ex.map .sub)) = false := by
          refine lost_false (fun c hc => ?_) fun c hc => ?_
          · obtain ⟨d, hd, rfl⟩ := List.mem_map.1 hc
            exact ((hcl d hd).1.sub _).free
          · simp only [subs, List.filterMap_append, List.mem_append] at hc
            rcases hc with hc | hc
            · rcases b2 c hc with h1 | ⟨j, h1⟩
              · obtain ⟨c', a, b, rfl, h2⟩ := builtin_user h1
                simp only [hfn, ne_eq, Option.some.injEq]
                rintro rfl
                rcases h2 with h2 | h2
                · exact h2 st.ops.1
                · simp at h2
              · rw [h1]
                simpa using st.names j
            · rw [List.filterMap_map] at hc
              obtain ⟨d, hd, e⟩ := List.mem_filterMap.1 hc
              simp only [Function.comp, Option.some.injEq] at e
              subst e
              exact (hbd _ ((hmem _).1 hd).1).1.free
        rw [hlost] at e
        simp only [Bool.false_eq_true, if_false] at e
        have hvs : rvars (⟨hd', bs ++ ex.map .sub⟩ : WRule W) = Unfold.unbound h V := by
          ext n
          simp only [Unfold.unbound, Finset.mem_filter, rvars, Finset.mem_union]
          constructor
          · rintro (hn | hn)
            · rw [a1] at hn
              exact ⟨o.sub hhV hn, o.good.vars_res hn⟩
            · obtain ⟨q, hq, hn⟩ := mem_bv.1 hn
              rcases List.mem_append.1 hq with hq | hq
              · obtain ⟨m, hm, hn⟩ := (b1 n).1 (mem_bv.2 ⟨q, hq, hn⟩)
                exact ⟨o.closed m (hr (Finset.mem_union_right _ hm)) hn, o.good.vars_res (t := .var m) (by simpa using hn)⟩
              · obtain ⟨d, hd, e⟩ := List.mem_map.1 hq
                cases e
                exact hRV n ((hbd _ ((hmem _).1 hd).1).2 hn)
          · rintro ⟨h1, h2⟩
            obtain ⟨m, hm, hn⟩ := hc n h1 h2
            have hm : m ∈ bodyVars r.body := by
              rcases Finset.mem_union.1 hm with hm | hm
              · exact hrr hm
              · exact hm
            obtain ⟨q, hq, hn⟩ := mem_bv.1 ((b1 n).2 ⟨m, hm, hn⟩)
            exact .inr (mem_bv.2 ⟨q, List.mem_append_left _ hq, hn⟩)
        obtain ⟨c1, c2, c3⟩ := addRule_adds (K := K) (w := w) (x := x) o hvs s h' s' hK hV e
        refine ⟨c1, c2, c3.trans ?_⟩
        congr 1
        refine M_congr fun θ hθ => ?_
        simp only
        rw [a3 θ hθ, bv_append, b3 θ hθ, bv_cst hw fun c hc => (hbd c ((hmem c).1 hc).1).1]
        by_cases hp : pv g.name chart w θ r.body ts = 0
        · simp [hp]
        · have hcl3 := hcl2 θ hθ (pv_ne st hw hg hθ hask hp)
          have hiff : (∀ c ∈ ex, (gsub θ c).1 ∈ I) ↔ Sat I ty (gsub θ r.head) := by
            rw [(sat_from st hf hi hθ).2]
            constructor
            · intro hx
              refine ((hRI θ hθ).1 (hbk θ fun c hc => ?_)).1
              by_cases hcc : c ∈ cl.2.map (·.sub (res h))
              · obtain ⟨d, hd, rfl⟩ := List.mem_map.1 hcc
                rw [gsub_res o.good hθ]
                exact hcl3 d hd
              · exact hx c ((hmem c).2 ⟨hc, hcc⟩)
            · intro ht c hc
              exact hfw θ ((hRI θ hθ).2 ⟨ht, hcl3⟩) c ((hmem c).1 hc).1
          by_cases h1 : abbr (g.name i) ty (gsub θ r.head) = x <;> by_cases h2 : Sat I ty (gsub θ r.head) <;> simp [h1, h2, hiff]
      · cases e
  · cases e

theorem derefR_eq {h : Heap} (hg : Good h) {f : Nat} {r r' : WRule W} (e : derefR h f r = some r') : r' = subRule (res h) r := by
  obtain ⟨N, hN⟩ := derefR_evt hg r
  have h1 := Unfold.derefR_mono (le_max_left f N) e
  rw [hN _ (le_max_right _ _)] at h1
  exact (Option.some.inj h1).symm

open Classical in
/-- the types that the item `y` belongs to, and by which `x` is its abbreviation -/
noncomputable def headVal (nm : Nat → Const) (I : Set Tm) (chart : List Ty) (x y : GTm) : W :=
  (chart.zipIdx.map fun z => if Sat I z.1 y ∧ abbr (nm z.2) z.1 y = x then 1 else 0).sum

theorem Sat.inst {t : Ty} {y : GTm} (h : Sat I t y) : Inst t.1 y := by
  obtain ⟨φ, e, _⟩ := h
  exact ⟨φ, e⟩

open Classical in
theorem closeBody_adds (st : Setting g con I L K chart) (hw : Tab g con I chart w) {f : Nat} {inf : W} {r : WRule W} {V : Finset Nat} {h : Heap} (o : Ok h V)
    (hlow : ∀ n ∈ V, K ≤ n) (hc : Solver2.Cov r h V) (hr : rvars r ⊆ V) (hrr : vars r.head ⊆ bodyVars r.body) (hask : ∀ q, .sub q ∈ r.body → Asked g.types q)
    (hhd : Asked g.types r.head) (huser : UserHead g.types.ops r.head) {ts : List (Got W)} (hg : Gots g.types.ops chart V h r.body ts) :
    Adds K w x V h (closeBody g f chart inf r ts) (M h V fun θ => headVal g.name I chart x (gsub θ r.head) * pv g.name chart w θ r.body ts) := by
  have hhV : vars r.head ⊆ V := Finset.subset_union_left.trans hr
  have hcs := gots_cst st hg fun q hq => ⟨hask q hq, (TypeAn.sub_vars hq).trans (Finset.subset_union_right.trans hr)⟩
  intro s h' s' hK hV e
  unfold closeBody at e
  split at e
  · next r' R e1 e2 =>
    obtain rfl := TypeAn.derefT_eq e2
    obtain rfl := derefR_eq o.good e1
    have hfr : ((termVars (subRule (res h) r).head).filter fun n => decide (n ∉ Solver2.bodyVs (subRule (res h) r).body)) = [] := by
      rw [List.filter_eq_nil_iff]
      intro n hn
      rw [(termVars_spec _).2] at hn
      simp only [decide_not, Bool.not_eq_true', decide_eq_false_iff_not, not_not, Solver2.bodyVs_eq]
      obtain ⟨m, hm, hn⟩ := mem_vars_sub.1 hn
      obtain ⟨q, hq, hm⟩ := mem_bv.1 (hrr hm)
      exact mem_bv.2 ⟨q.sub (res h), List.mem_map.2 ⟨_, hq, rfl⟩, mem_vars_sub.2 ⟨m, hm, hn⟩⟩
    rw [hfr] at e
    simp only [List.map_nil, List.append_nil] at e
    have hRK : ∀ n ∈ TypeAn.tvars (r.head.sub (res h), (constraints ts).map (·.sub (res h))), n ∈ V := by
      intro n hn
      rcases TypeAn.mem_tvars.1 hn with hn | ⟨c, hc, hn⟩
      · exact o.sub hhV hn
      · obtain ⟨d, hd, rfl⟩ := List.mem_map.1 hc
        exact o.sub (hcs d hd).2 hn
    have hRC : ∀ c ∈ (constraints ts).map (·.sub (res h)), Cst g.types.ops con c ∨ ∃ a, c = .con a := by
      intro c hc
      obtain ⟨d, hd, rfl⟩ := List.mem_map.1 hc
      exact (hcs d hd).1.imp (fun h => h.sub _) (by rintro ⟨a, rfl⟩; exact ⟨a, by simp⟩)
    have hRI : ∀ θ, Resp h θ → ((∀ c ∈ (constraints ts).map (·.sub (res h)), (gsub θ c).1 ∈ I) ↔ ∀ c ∈ constraints ts, (gsub θ c).1 ∈ I) := by
      intro θ hθ
      simp only [List.forall_mem_map, gsub_res o.good hθ]
    split at e
    · cases e
    · cases e
    · next e3 =>
      simp only [Option.some.injEq, Prod.mk.injEq, and_true] at e
      obtain ⟨rfl, rfl⟩ := e
      refine ⟨rfl, le_refl _, ?_⟩
      rw [M_zero, add_zero]
      intro θ hθ
      by_cases hp : pv g.name chart w θ r.body ts = 0
      · rw [hp, mul_zero]
      · exact (st.simp.none _ _ (fun n hn hl => absurd (hlow n (hRK n hn)) (Nat.not_le.2 (st.low n hl))) (fun c hc => (hRC c hc).imp id .inl) e3 θ ((hRI θ hθ).2 (pv_ne st hw hg hθ hask hp))).elim
    · next hd bd e3 =>
      obtain ⟨hbd, hfw⟩ := st.simp.ty _ _ _ _ (fun n hn hl => absurd (hlow n (hRK n hn)) (Nat.not_le.2 (st.low n hl))) hRC e3
      have hnb : builtin g.types.ops r.head = false := by
        obtain ⟨c, as, e, h1, h2⟩ := huser
        rw [e]
        exact builtin_false (fun o x y h _ => by rw [h1] at h; cases h) fun x y h3 _ => h2 h3
      have hG : ∀ (ix : Option Nat) (θ φ : Nat → GTm), (∀ n ∈ V, θ n = φ n) →
          (match ix with
            | some i => (match chart[i]? with
              | some ty => (if Sat I ty (gsub θ r.head) ∧ abbr (g.name i) ty (gsub θ r.head) = x then 1 else 0) * pv g.name chart w θ r.body ts
              | none => 0)
            | none => (0 : W)) =
          match ix with
            | some i => (match chart[i]? with
              | some ty => (if Sat I ty (gsub φ r.head) ∧ abbr (g.name i) ty (gsub φ r.head) = x then 1 else 0) * pv g.name chart w φ r.body ts
              | none => 0)
            | none => 0 := by
        intro ix θ φ hθ
        rw [gsub_congr (t := r.head) fun n hn => hθ n (hhV hn), pv_congr (b := r.body) (fun n hn => hθ n (hr (Finset.mem_union_right _ hn)))]
      refine ((lookI_adds st.tys o hlow hc hhd hhV Finset.subset_union_left (G := fun ix θ => match ix with
            | some i => (match chart[i]? with
              | some ty => (if Sat I ty (gsub θ r.head) ∧ abbr (g.name i) ty (gsub θ r.head) = x then 1 else 0) * pv g.name chart w θ r.body ts
              | none => 0)
            | none => (0 : W)) hG (fun ix t V' h' h1 h2 h3 h4 h5 h6 => ?_) (fun θ _ => rfl) st.ops.2).congr ?_) s h' s' hK hV e
      · cases h6 with
        | blt hb => rw [hnb] at hb; cases hb
        | @type i ty _ ρ hi ht hρ hb he =>
          simp only [hi]
          refine closeHead_adds st hw h3 h2 h4 (hr.trans h1) hrr hask (hg.mono h1 h5) (fun c hc => ⟨(hbd c hc).1, fun n hn => h1 (hRK n ((hbd c hc).2 hn))⟩)
            (fun θ hθ hcon => hfw θ ((hRI θ (h5 _ hθ)).2 hcon)) (.type ρ hi ht hρ hb he) hi
      · refine M_congr fun θ _ => ?_
        unfold lookSum headVal
        rw [hnb, if_neg (by simp), ← List.sum_map_mul_right]
        refine congrArg List.sum (List.map_congr_left fun z hz => ?_)
        simp only [mem_zip hz]
        by_cases hin : Inst z.1.1 (gsub θ r.head)
        · rw [if_pos hin]
        · rw [if_neg hin, if_neg fun h => hin h.1.inst, zero_mul]
  · cases e

/-- a rule that can be abbreviated: range restricted, with an ordinary head and ordinary subgoals, none of them a constraint -/
structure AOk (g : Cfg) (r : WRule W) : Prop where
  range : vars r.head ⊆ bodyVars r.body
  user : UserHead g.types.ops r.head
  head : Asked g.types r.head
  asked : ∀ q, .sub q ∈ r.body → Asked g.types q

theorem Asked.sub {a : TypeAn.Cfg} {q : Tm} (h : Asked a q) (σ : Nat → Tm) : Asked a (q.sub σ) := by
  obtain ⟨c, as, rfl, h⟩ := h
  exact ⟨c, as.map (·.sub σ), by simp, h⟩

theorem mem_renBody {r : WRule W} {ρ : Nat → Nat} {q : Tm} : .sub q ∈ (renRule ρ r).body ↔ ∃ u, .sub u ∈ r.body ∧ q = u.sub fun n => .var (ρ n) := by
  simp only [renRule, List.mem_map]
  constructor
  · rintro ⟨l, hl, e⟩
    cases l with
    | val a => cases e
    | sub u =>
      simp only [renLit, Lit.sub.injEq] at e
      exact ⟨u, hl, e.symm⟩
  · rintro ⟨u, hu, rfl⟩
    exact ⟨_, hu, rfl⟩

theorem AOk.ren {r : WRule W} (h : AOk g r) (ρ : Nat → Nat) : AOk g (renRule ρ r) := by
  refine ⟨fun n hn => ?_, ?_, h.head.sub _, fun q hq => ?_⟩
  · obtain ⟨m, hm, hn⟩ := mem_vars_sub.1 hn
    obtain ⟨q, hq, hm⟩ := mem_bv.1 (h.range hm)
    exact mem_bv.2 ⟨_, mem_renBody.2 ⟨q, hq, rfl⟩, mem_vars_sub.2 ⟨m, hm, hn⟩⟩
  · obtain ⟨c, as, e, h1, h2⟩ := h.user
    exact ⟨c, as.map (·.sub fun n => .var (ρ n)), by simp [renRule, e], h1, h2⟩
  · obtain ⟨u, hu, rfl⟩ := mem_renBody.1 hq
    exact (h.asked u hu).sub _

/-- what the rule `r` adds -/
noncomputable def ruleVal (g : Cfg) (I : Set Tm) (chart : List Ty) (w : GTm → W) (x : GTm) (r : WRule W) : W :=
  isum fun a : Asg (rvars r) => headVal g.name I chart x (gsub (ext a) r.head) * bv (dec g.types.ops g.name chart w) (ext a) r.body

theorem abbrRule_adds (st : Setting g con I L K chart) (hw : Tab g con I chart w) {f : Nat} {inf : W} {r : WRule W} (hr : AOk g r) :
    Adds K w x ∅ noHeap (abbrRule g f chart inf r) (ruleVal g I chart w x r) := by
  intro s h' s' hK _ e
  unfold abbrRule at e
  obtain ⟨ρ, e1, hinj, hfr, hle⟩ := freshR_spec s.2 r
  simp only [e1] at e
  have hr' := hr.ren ρ
  have hvr : ∀ n ∈ rvars (renRule ρ r), s.2 ≤ n ∧ n < (freshR s.2 r).2 := by
    intro n hn
    rw [rvars_renRule, Finset.mem_image] at hn
    obtain ⟨m, hm, rfl⟩ := hn
    exact hfr m hm
  have := joinI_adds (K := K) (w := w) (x := x) (nm := g.name) (g := g.types) st.tys hw.zero st.ops.2 (f := f) (r := renRule ρ r) (b := (renRule ρ r).body) (V := rvars (renRule ρ r)) (ok_noHeap _)
    (fun n hn => hK.trans (hvr n hn).1) (fun n hn _ => ⟨n, hn, by rw [res_unbound rfl]; simp⟩)
    (fun q hq => ⟨hr'.asked q hq, (TypeAn.sub_vars hq).trans Finset.subset_union_right, (TypeAn.sub_vars hq).trans Finset.subset_union_right⟩)
    (body := closeBody g f chart inf (renRule ρ r)) (A := fun θ => headVal g.name I chart x (gsub θ (renRule ρ r).head))
    (fun θ φ hθ => by rw [gsub_congr (t := (renRule ρ r).head) fun n hn => hθ n (Finset.mem_union_left _ hn)])
    (fun ts V' h' h1 h2 h3 h4 h5 h6 => closeBody_adds st hw h3 h2 h4 h1 hr'.range hr'.asked hr'.head hr'.user h6) (s.1, (freshR s.2 r).2) h' s' (hK.trans hle)
    (fun n hn => (hvr n hn).2) e
  refine ⟨this.1, hle.trans this.2.1, this.2.2.trans ?_⟩
  congr 1
  rw [M_noHeap]
  unfold ruleVal
  have hcast : ∀ (U : Finset Nat) (F : (Nat → GTm) → W), U = (rvars r).image ρ → (isum fun a : Asg U => F (ext a)) = isum fun a : Asg ((rvars r).image ρ) => F (ext a) := by
    rintro _ F rfl
    rfl
  rw [hcast _ (fun θ => headVal g.name I chart x (gsub θ (renRule ρ r).head) * bv (dec g.types.ops g.name chart w) θ (renRule ρ r).body) (rvars_renRule ρ r), ← isum_rename hinj]
  refine isum_congr fun a => ?_
  simp only [renRule, gsub_ren, bv_ren]
  have h : ∀ n ∈ rvars r, ext (cut (rvars r) fun n => ext a (ρ n)) n = ext a (ρ n) := fun n hn => ext_cut hn
  rw [gsub_congr (t := r.head) fun n hn => h n (by simp [rvars, hn]), bv_congr (b := r.body) fun n hn => h n (by simp [rvars, hn])]

/-! ### One step -/

theorem abbr_fn {t : Ty} {y : GTm} (h : Inst t.1 y) (nm : Const) : hfn (abbr nm t y).1 = some nm := by
  unfold abbr
  rw [dif_pos (show ∃ φ : Nat → GTm, gsub φ t.1 = y from h)]
  simp [atom, hfn, gsub]

theorem atom_inj {ops : Ops} {k : Nat} {t : Ty} (h : TyOk ops k t) {nm : Const} {φ : Nat → GTm} {y : GTm} (hy : Inst t.1 y) :
    gsub φ (atom nm t) = abbr nm t y ↔ gsub φ t.1 = y := by
  obtain ⟨ψ, rfl⟩ := hy
  rw [abbr_eq h rfl, gsub_inj, gsub_inj, atom_vars h]

theorem abbr_inj {ops : Ops} {k : Nat} {t : Ty} (h : TyOk ops k t) {nm : Const} {y z : GTm} (hy : Inst t.1 y) (hz : Inst t.1 z) : abbr nm t z = abbr nm t y ↔ z = y := by
  obtain ⟨φ, rfl⟩ := hz
  rw [abbr_eq h (y := gsub φ t.1) rfl]
  exact atom_inj h hy

/-- a sum over the chart with one term -/
theorem sum_at {i : Nat} {t : Ty} {F : Ty × Nat → W} (hi : chart[i]? = some t) (h0 : ∀ z ∈ chart.zipIdx, z.2 ≠ i → F z = 0) : (chart.zipIdx.map F).sum = F (t, i) := by
  have key : ∀ (l : List Ty) (n i : Nat), l[i]? = some t → (∀ z ∈ l.zipIdx n, z.2 ≠ n + i → F z = 0) → ((l.zipIdx n).map F).sum = F (t, n + i) := by
    intro l
    induction l with
    | nil => intro n i h; simp at h
    | cons a l ih =>
      intro n i h h0
      rw [List.zipIdx_cons, List.map_cons, List.sum_cons]
      cases i with
      | zero =>
        simp only [List.getElem?_cons_zero, Option.some.injEq] at h
        subst h
        have : ((l.zipIdx (n + 1)).map F).sum = 0 := by
          apply List.sum_eq_zero
          intro y hy
          obtain ⟨z, hz, rfl⟩ := List.mem_map.1 hy
          obtain ⟨_, _⟩ := z
          have := List.mem_zipIdx hz
          exact h0 _ (List.mem_cons_of_mem _ hz) (by simp only; omega)
        rw [this, add_zero]
        rfl
      | succ i =>
        rw [h0 (a, n) (by simp) (by simp only; omega), zero_add, ih (n + 1) i (by simpa using h) fun z hz hz2 => h0 z (by rw [List.zipIdx_cons]; exact List.mem_cons_of_mem _ hz) (by omega)]
        congr 2
        omega
  have := key chart 0 i hi (by simpa using h0)
  simpa using this

open Classical in
theorem headVal_eq (st : Setting g con I L K chart) {i : Nat} {t : Ty} (hi : chart[i]? = some t) {y : GTm} (hy : Inst t.1 y) (z : GTm) :
    headVal g.name I chart (abbr (g.name i) t y) z = if Sat I t y ∧ z = y then (1 : W) else 0 := by
  unfold headVal
  rw [sum_at hi]
  · refine if_congr ⟨?_, ?_⟩ rfl rfl
    · rintro ⟨h1, h2⟩
      obtain rfl := (abbr_inj (st.tys t (List.mem_of_getElem? hi)) hy h1.inst).1 h2
      exact ⟨h1, rfl⟩
    · rintro ⟨h1, rfl⟩
      exact ⟨h1, rfl⟩
  · intro z' _ hz
    refine if_neg ?_
    rintro ⟨h1, h2⟩
    have h3 := abbr_fn h1.inst (g.name z'.2)
    rw [h2, abbr_fn hy, Option.some.injEq] at h3
    exact hz (st.inj h3.symm)

theorem headVal_zero {x : GTm} (hx : ∀ i, hfn x.1 ≠ some (g.name i)) (z : GTm) : headVal g.name I chart x z = (0 : W) := by
  classical
  unfold headVal
  apply List.sum_eq_zero
  intro y hy
  obtain ⟨z', _, rfl⟩ := List.mem_map.1 hy
  refine if_neg ?_
  rintro ⟨h1, rfl⟩
  exact hx _ (abbr_fn h1.inst _)

theorem loop_T (st : Setting g con I L K chart) (hw : Tab g con I chart w) {f : Nat} {inf : W} {p : List (WRule W)} (hp : ∀ r ∈ p, AOk g r)
    {h' : Heap} {s : List (WRule W) × Nat} (e : forEach p (abbrRule g f chart inf) noHeap ([], K) = some (h', s, .done)) (x : GTm) :
    T s.1 w x = (p.map (ruleVal g I chart w x)).sum := by
  have := forEach_adds (K := K) (w := w) (x := x) (V := ∅) (h := noHeap) (l := p) (fun r hr => abbrRule_adds st hw (hp r hr)) ([], K) h' s (le_refl _) (by simp) e
  simpa [T_nil] using this.2.2

open Classical in
theorem loop_abbr (st : Setting g con I L K chart) {p : List (WRule W)} {i : Nat} {t : Ty} (hi : chart[i]? = some t) {y : GTm} (hy : Inst t.1 y) :
    (p.map (ruleVal g I chart w (abbr (g.name i) t y))).sum = if Sat I t y then T p (dec g.types.ops g.name chart w) y else 0 := by
  have : ∀ r : WRule W, ruleVal g I chart w (abbr (g.name i) t y) r = if Sat I t y then contrib r (dec g.types.ops g.name chart w) y else 0 := by
    intro r
    unfold ruleVal contrib
    by_cases hs : Sat I t y
    · rw [if_pos hs]
      refine isum_congr fun a => ?_
      rw [headVal_eq st hi hy]
      by_cases h : gsub (ext a) r.head = y <;> simp [hs, h]
    · rw [if_neg hs]
      refine (isum_congr fun a => ?_).trans isum_zero
      rw [headVal_eq st hi hy, if_neg fun h => hs h.1, zero_mul]
  rw [List.map_congr_left fun r _ => this r]
  by_cases hs : Sat I t y
  · simp only [if_pos hs]; rfl
  · simp [if_neg hs]

theorem loop_other {p : List (WRule W)} {x : GTm} (hx : ∀ i, hfn x.1 ≠ some (g.name i)) : (p.map (ruleVal g I chart w x)).sum = 0 := by
  apply List.sum_eq_zero
  intro y hy
  obtain ⟨r, _, rfl⟩ := List.mem_map.1 hy
  unfold ruleVal
  refine (isum_congr fun a => ?_).trans isum_zero
  rw [headVal_zero hx, zero_mul]

/-! ### Recovery -/

/-- the type is one of the inputs -/
def IsIn (g : Cfg) (t : Ty) : Prop := ∃ u ∈ g.ins, ∃ τ : Nat → Tm, u.sub τ = t.1.sub τ

/-- the generated names are new -/
structure Names (g : Cfg) (con : Const → Prop) (I : Set Tm) (chart : List Ty) : Prop where
  head : ∀ i, ∀ t ∈ chart, hfn t.1 ≠ some (g.name i)
  fresh : ∀ i, ¬ con (g.name i)
  ops : ∀ i, g.types.ops (g.name i) = none ∧ g.name i ≠ .str "="
  heads : ∀ t ∈ chart, ∀ c, hfn t.1 = some c → ¬ con c
  bound : ∀ t ∈ chart, ∀ c ∈ t.2, hfn c = some (.str "$bound") → ∀ θ : Nat → GTm, (gsub θ c).1 ∈ I

open Classical in
/-- what the recovery rule of a type adds -/
noncomputable def recVal (g : Cfg) (I : Set Tm) (w : GTm → W) (x : GTm) (z : Ty × Nat) : W :=
  if IsIn g z.1 then contrib ⟨atom (g.name z.2) z.1, .sub z.1.1 :: (z.1.2.filter fun c => !isInst c).map .sub⟩ w x
  else contrib ⟨z.1.1, [.sub (atom (g.name z.2) z.1)]⟩ w x

theorem recovery_T {f : Nat} : ∀ {zs : List (Ty × Nat)} {rs : List (WRule W)}, recovery g f zs = some rs → ∀ x, T rs w x = (zs.map (recVal g I w x)).sum
  | [], rs, e, x => by
    simp only [recovery, Option.some.injEq] at e
    subst e
    simp [T_nil]
  | (t, i) :: zs, rs, e, x => by
    simp only [recovery] at e
    split at e
    · next b rs' e1 e2 =>
      simp only [Option.some.injEq] at e
      subst e
      rw [T_cons, List.map_cons, List.sum_cons, recovery_T e2 x]
      congr 1
      have hb := TypeAn.isInput_val (Heap.good_iff_acyclic.2 Heap.acyclic_empty) e1
      have hb : b = true ↔ IsIn g t := by
        rw [hb]
        unfold IsIn
        constructor
        · rintro ⟨u, hu, τ, _, h⟩
          exact ⟨u, hu, τ, h⟩
        · rintro ⟨u, hu, τ, h⟩
          exact ⟨u, hu, τ, by intro n v h; simp [noHeap] at h, h⟩
      unfold recVal
      by_cases h : IsIn g t
      · rw [if_pos h, if_pos (hb.2 h)]
      · rw [if_neg h, if_neg fun h' => h (hb.1 h')]
    · cases e

theorem contrib_fn {r : WRule W} {x : GTm} {c : Const} (h : hfn r.head = some c) (hx : hfn x.1 ≠ some c) : contrib r w x = 0 := by
  classical
  unfold contrib
  refine (isum_congr fun a => ?_).trans isum_zero
  refine if_neg ?_
  rintro rfl
  apply hx
  obtain ⟨as, e⟩ := AntiUnify.hfn_some h
  rw [e]
  simp [hfn, gsub]

open Classical in
/-- the recovery rule of a type that is not an input -/
theorem rec_out {ops : Ops} {t : Ty} (ht : TyOk ops K t) (nm : Const) (x : GTm) :
    contrib ⟨t.1, [.sub (atom nm t)]⟩ w x = if Inst t.1 x then w (abbr nm t x) else 0 := by
  have hV : rvars (⟨t.1, [.sub (atom nm t)]⟩ : WRule W) = vars t.1 := by
    simp [rvars, bodyVars, litVars, atom_vars ht]
  rw [contrib_eq hV, show (if Inst t.1 x then w (abbr nm t x) else 0) = if Slash.Inst t.1 x then w (abbr nm t x) else 0 from rfl, ← Slash.isum_match]
  refine isum_congr fun a => ?_
  by_cases h : gsub (ext a) t.1 = x
  · rw [if_pos h, if_pos h, bv_cons, bv_nil, mul_one]
    simp only [lv, abbr_eq ht h]
  · rw [if_neg h, if_neg h]

open Classical in
/-- the recovery rule of an input type -/
theorem rec_in (st : Setting g con I L K chart) (hn : Names g con I chart) (hw : Tab g con I chart w) {t : Ty} (ht : t ∈ chart) (nm : Const) {y : GTm} (hy : Inst t.1 y) :
    contrib ⟨atom nm t, .sub t.1 :: (t.2.filter fun c => !isInst c).map .sub⟩ w (abbr nm t y) = if Sat I t y then w y else 0 := by
  have hty := st.tys t ht
  have hV : rvars (⟨atom nm t, .sub t.1 :: (t.2.filter fun c => !isInst c).map .sub⟩ : WRule W) = vars t.1 := by
    ext n
    simp only [rvars, Finset.mem_union, atom_vars hty, mem_bv]
    constructor
    · rintro (h | ⟨q, hq, h⟩)
      · exact h
      · rcases List.mem_cons.1 hq with hq | hq
        · cases hq; exact h
        · obtain ⟨c, hc, e⟩ := List.mem_map.1 hq
          cases e
          exact hty.safe _ (List.mem_filter.1 hc).1 h
    · exact .inl
  rw [contrib_eq hV]
  have : ∀ a : Asg (vars t.1), (if gsub (ext a) (atom nm t) = abbr nm t y then bv w (ext a) (.sub t.1 :: (t.2.filter fun c => !isInst c).map .sub) else 0) =
      if gsub (ext a) t.1 = y then (if Sat I t y then w y else 0) else 0 := by
    intro a
    by_cases h : gsub (ext a) t.1 = y
    · rw [if_pos h, if_pos ((atom_inj hty hy).2 h), bv_cons, bv_cst hw fun c hc => st.cst t ht c (List.mem_filter.1 hc).1]
      simp only [lv, h]
      have hiff : (∀ c ∈ t.2.filter fun c => !isInst c, (gsub (ext a) c).1 ∈ I) ↔ Sat I t y := by
        constructor
        · intro hc
          refine ⟨ext a, h, fun c hct => ?_⟩
          by_cases hi : isInst c = true
          · obtain ⟨s, as, rfl, h1, _⟩ := st.cst t ht c hct
            simp only [isInst, hfn, Bool.or_eq_true, beq_iff_eq, Option.some.injEq] at hi
            rcases hi with hi | hi
            · exact (h1 hi).elim
            · subst hi
              exact hn.bound t ht _ hct rfl _
          · exact hc c (List.mem_filter.2 ⟨hct, by simpa using hi⟩)
        · rintro ⟨φ, e, hφ⟩ c hc
          have hct := (List.mem_filter.1 hc).1
          rw [gsub_congr (φ := φ) fun n hn => gsub_inj.1 (h.trans e.symm) n (hty.safe c hct hn)]
          exact hφ c hct
      by_cases hs : Sat I t y
      · rw [if_pos hs, if_pos (hiff.2 hs), mul_one]
      · rw [if_neg hs, if_neg fun h => hs (hiff.1 h), mul_zero]
    · rw [if_neg h, if_neg fun h' => h ((atom_inj hty hy).1 h')]
  rw [isum_congr this, Slash.isum_match, if_pos (show Slash.Inst t.1 y from hy)]

open Classical in
/-- **C68, one step of the abbreviated program.**  For every table of values: an abbreviation gets the value that the
rules of the program give to the item it stands for, if this item belongs to the type; and an item gets the values of
its abbreviations. -/
theorem C68_step (st : Setting g con I L K chart) (hn : Names g con I chart) {f : Nat} {inf : W} {p q : List (WRule W)} (hp : ∀ r ∈ p, AOk g r)
    (e : abbreviate g f K chart inf p = some q) (hw : Tab g con I chart w) :
    (∀ i t y, chart[i]? = some t → Inst t.1 y → T q w (abbr (g.name i) t y) =
      if Sat I t y then T p (dec g.types.ops g.name chart w) y + (if IsIn g t then w y else 0) else 0) ∧
    ∀ x : GTm, (∀ i, hfn x.1 ≠ some (g.name i)) → T q w x =
      (chart.zipIdx.map fun z => if ¬ IsIn g z.1 ∧ Inst z.1.1 x then w (abbr (g.name z.2) z.1 x) else 0).sum := by
  unfold abbreviate at e
  split at e
  · split at e
    · next rs h' s e1 e2 =>
      simp only [Option.some.injEq] at e
      subst e
      refine ⟨fun i t y hi hy => ?_, fun x hx => ?_⟩
      · rw [T_append, recovery_T (I := I) e1, loop_T st hw hp e2, loop_abbr st hi hy, sum_at hi]
        · have ht := List.mem_of_getElem? hi
          unfold recVal
          by_cases hin : IsIn g t
          · rw [if_pos hin, rec_in st hn hw ht _ hy]
            by_cases hs : Sat I t y <;> simp [hs, hin, add_comm]
          · rw [if_neg hin, rec_out (st.tys t ht), if_neg]
            · simp [hin]
            · rintro ⟨φ, h⟩
              have h1 := abbr_fn hy (g.name i)
              rw [← h] at h1
              obtain ⟨c, as, hc, _⟩ := (st.tys t ht).user
              apply hn.head i t ht
              rw [hc] at h1 ⊢
              simpa [gsub, hfn] using h1
        · intro z hz hz2
          have h1 := abbr_fn hy (g.name i)
          unfold recVal
          by_cases hin : IsIn g z.1
          · rw [if_pos hin, contrib_fn (c := g.name z.2) (by simp [atom, hfn])]
            rw [h1, ne_eq, Option.some.injEq]
            exact fun h => hz2 (st.inj h.symm)
          · obtain ⟨c, as, hc, h3, _⟩ := user_hfn (st.tys _ (mem_chart hz)).user
            rw [if_neg hin, contrib_fn h3]
            rw [h1]
            exact fun h => hn.head i _ (mem_chart hz) (h3.trans h.symm)
      · rw [T_append, recovery_T (I := I) e1, loop_T st hw hp e2, loop_other hx, add_zero]
        refine congrArg List.sum (List.map_congr_left fun z hz => ?_)
        have ht := mem_chart hz
        unfold recVal
        by_cases hin : IsIn g z.1
        · rw [if_pos hin, contrib_fn (c := g.name z.2) (by simp [atom, hfn]) (hx _), if_neg fun h => h.1 hin]
        · rw [if_neg hin, rec_out (st.tys _ ht)]
          simp [hin]
    · cases e
  · cases e

/-! ### Disjointness -/

theorem sat_den {t : Ty} {y : GTm} : Sat I t y ↔ y.1 ∈ Rewrites.Den I t := by
  rw [TypeAn.mem_den]
  constructor
  · rintro ⟨φ, rfl, h⟩
    exact ⟨φ, h, rfl⟩
  · rintro ⟨φ, h, e⟩
    exact ⟨φ, Subtype.ext e.symm, h⟩

theorem meets_disjoint (st : Setting g con I L K chart) {f : Nat} {r s : Ty} (hr : r ∈ chart) (hs : s ∈ chart)
    (e : AntiUnify.meets ⟨fun _ _ => none, fun _ _ _ => none, g.simpNF⟩ f K r s = some false) {y : GTm} (h1 : Sat I r y) (h2 : Sat I s y) : False := by
  rw [sat_den] at h1 h2
  have hrv : ∀ n ∈ TypeAn.tvars r, n ∈ vars r.1 := fun n hn => by
    rcases TypeAn.mem_tvars.1 hn with h | ⟨c, hc, h⟩
    · exact h
    · exact (st.tys r hr).safe c hc h
  rw [← TypeAn.den_fresh I K s] at h2
  have v2 := TypeAn.freshT_vars K s
  have hcs : ∀ c ∈ (freshT K s).1.2, Cst g.types.ops con c := by
    obtain ⟨ρ, e1, _⟩ := TypeAn.freshT_spec K s
    rw [e1]
    intro c hc
    obtain ⟨d, hd, rfl⟩ := List.mem_map.1 hc
    exact (st.cst s hs d hd).sub _
  unfold AntiUnify.meets at e
  simp only at e
  generalize freshT K s = s' at *
  have hd : Rewrites.Disj r s'.1 := by
    intro n a b
    have h3 : n ∈ TypeAn.tvars r := by simpa [TypeAn.tvars] using a
    have h4 : n ∈ TypeAn.tvars s'.1 := by simpa [TypeAn.tvars] using b
    have := (st.tys r hr).vs n (hrv n h3); have := (v2 n h4).1; omega
  obtain ⟨τ, c1, c2, c3⟩ := Rewrites.common hd h1 h2
  split at e
  · cases e
  · rename_i em
    exact (Subst.C05_fail em).1 rfl ⟨τ, c2.trans c3.symm⟩
  · rename_i σ em
    split at e
    · cases e
    · cases e
    · rename_i es
      have h3 := Rewrites.common_sc hd h1 h2 st.eqs em (AntiUnify.scons_spec em)
      obtain ⟨θ, hθ, _⟩ := TypeAn.mem_den.1 h3
      refine st.simpNF.none _ _ ?_ ?_ es θ hθ
      · intro n hn hl
        have hlt := st.low n hl
        have hrn : n ∈ vars r.1 → False := fun h => st.avoid r hr n h hl
        rcases TypeAn.mem_tvars.1 hn with h | ⟨c, hc, h⟩
        · exact hrn h
        · rcases List.mem_append.1 hc with hc | hc
          · rcases List.mem_append.1 hc with hc | hc
            · exact hrn ((st.tys r hr).safe c hc h)
            · have := (v2 n (TypeAn.mem_tvars.2 (.inr ⟨c, hc, h⟩))).1; omega
          · rcases Finset.mem_union.1 (AntiUnify.scons_vars em hc h) with h | h
            · exact hrn h
            · have := (v2 n (TypeAn.mem_tvars.2 (.inl h))).1; omega
      · intro c hc
        rcases List.mem_append.1 hc with hc | hc
        · rcases List.mem_append.1 hc with hc | hc
          · exact .inl (st.cst r hr c hc)
          · exact .inl (hcs c hc)
        · obtain ⟨n, u, _, rfl⟩ := ((AntiUnify.scons_spec em) c).1 hc
          exact .inr (.inr ⟨_, _, rfl⟩)
    · cases e

/-- **C68, the types are disjoint**: if the abbreviation returns, no item belongs to two types. -/
theorem C68_disjoint (st : Setting g con I L K chart) {f : Nat} {inf : W} {p q : List (WRule W)} (e : abbreviate g f K chart inf p = some q) {i j : Nat} {t u : Ty}
    (hi : chart[i]? = some t) (hj : chart[j]? = some u) {y : GTm} (h1 : Sat I t y) (h2 : Sat I u y) : i = j := by
  unfold abbreviate at e
  split at e
  · next e1 =>
    have hp := AntiUnify.findPair_none e1
    rw [List.pairwise_iff_getElem] at hp
    obtain ⟨li, rfl⟩ := List.getElem?_eq_some_iff.1 hi
    obtain ⟨lj, rfl⟩ := List.getElem?_eq_some_iff.1 hj
    rcases Nat.lt_trichotomy i j with h | h | h
    · exact (meets_disjoint st (by simp) (by simp) (hp i j li lj h) h1 h2).elim
    · exact h
    · exact (meets_disjoint st (by simp) (by simp) (hp j i lj li h) h2 h1).elim
  · cases e

/-! ### Values -/

/-- an ordinary item: not a builtin, a constraint or an abbreviation -/
def Plain (g : Cfg) (con : Const → Prop) (y : GTm) : Prop :=
  bval (W := Nat) g.types.ops y.1 = none ∧ ∃ c, hfn y.1 = some c ∧ ¬ con c ∧ ∀ i, c ≠ g.name i

open Classical in
/-- the data: the constraints and the builtins have their values, and there are no data for abbreviations and for items
of types that are not inputs -/
structure Data (g : Cfg) (con : Const → Prop) (I : Set Tm) (chart : List Ty) (d : GTm → W) : Prop where
  con : ∀ y : GTm, Cst g.types.ops con y.1 → d y = if y.1 ∈ I then 1 else 0
  zero : PruneTypes.BZero g.types.ops d
  names : ∀ (y : GTm) i, hfn y.1 = some (g.name i) → d y = 0
  typ : ∀ t ∈ chart, ¬ IsIn g t → ∀ y, Sat I t y → d y = 0

/-- the subgoals are builtins or have functors that are not constraints -/
def PlainSubs (g : Cfg) (con : Const → Prop) (r : WRule W) : Prop :=
  ∀ q, .sub q ∈ r.body → builtin g.types.ops q = true ∨ ∀ c, hfn q = some c → ¬ con c ∧ ∀ i, c ≠ g.name i

/-- the rounds of evaluation, starting with the values `c` -/
noncomputable def it (p : List (WRule W)) (d c : GTm → W) : Nat → GTm → W
  | 0 => c
  | n + 1 => fun x => d x + T p (it p d c n) x

open Classical in
/-- the data without those of ordinary items -/
noncomputable def base (g : Cfg) (con : Const → Prop) (d : GTm → W) (y : GTm) : W :=
  if bval (W := Nat) g.types.ops y.1 = none ∧ ∀ c, hfn y.1 = some c → ¬ con c then 0 else d y

theorem bval_gt (ops : Ops) {y : GTm} {c : Const} {as : List Tm} (h : y.1 = .app (.con c :: as)) :
    bval (W := Nat) ops y.1 = none ↔ builtin ops y.1 = false := by
  have := bval_builtin ops (c := c) (as := as) fun _ => ⟨.con (.int 0), rfl⟩
  rw [← h] at this
  rwa [show gsub (fun _ => (⟨.con (.int 0), rfl⟩ : GTm)) y.1 = y from Subtype.ext (Unfold.sub_closed y.2 _)] at this

theorem inst_plain (st : Setting g con I L K chart) (hn : Names g con I chart) {t : Ty} (ht : t ∈ chart) {y : GTm} (h : Inst t.1 y) : Plain g con y := by
  obtain ⟨φ, rfl⟩ := h
  obtain ⟨c, as, e, h1, h2, h3⟩ := user_hfn (st.tys t ht).user
  refine ⟨?_, c, by rw [e]; simp [gsub, hfn], hn.heads t ht c h1, fun i hi => hn.head i t ht (by rw [h1, hi])⟩
  rw [e, bval_builtin]
  exact builtin_false (fun o x y h _ => by rw [h2] at h; cases h) fun _ _ h _ => h3 h

open Classical in
theorem sum_inst_zero (st : Setting g con I L K chart) (hn : Names g con I chart) {y : GTm} (h : ¬ Plain g con y) (w : GTm → W) :
    (chart.zipIdx.map fun z => if ¬ IsIn g z.1 ∧ Inst z.1.1 y then w (abbr (g.name z.2) z.1 y) else 0).sum = 0 := by
  apply List.sum_eq_zero
  intro x hx
  obtain ⟨z, hz, rfl⟩ := List.mem_map.1 hx
  exact if_neg fun hp => h (inst_plain st hn (mem_chart hz) hp.2)

/-- an item with the functor of an abbreviation is neither a builtin nor a constraint -/
theorem name_none (hn : Names g con I chart) {y : GTm} {i : Nat} (h : hfn y.1 = some (g.name i)) :
    bval (W := Nat) g.types.ops y.1 = none ∧ ∀ c, hfn y.1 = some c → ¬ con c := by
  obtain ⟨as, e⟩ := AntiUnify.hfn_some h
  refine ⟨?_, fun c hc => ?_⟩
  · rw [bval_gt _ e, e]
    exact builtin_false (fun o x y h _ => by rw [(hn.ops i).1] at h; cases h) fun _ _ h _ => (hn.ops i).2 h
  · rw [h, Option.some.injEq] at hc
    exact hc ▸ hn.fresh i

theorem cst_not (hn : Names g con I chart) {y : GTm} (h : Cst g.types.ops con y.1) : ¬ Plain g con y ∧ (∀ i, hfn y.1 ≠ some (g.name i)) ∧
    ¬ (bval (W := Nat) g.types.ops y.1 = none ∧ ∀ c, hfn y.1 = some c → ¬ con c) := by
  obtain ⟨s, as, e, _, _, h2⟩ := h
  have hs : hfn y.1 = some s := by rw [e]; rfl
  have key : ¬ (bval (W := Nat) g.types.ops y.1 = none ∧ ∀ c, hfn y.1 = some c → ¬ con c) := by
    rintro ⟨a, b⟩
    rcases h2 with h2 | h2
    · exact b s hs h2
    · rw [bval_gt _ e, h2] at a
      cases a
  refine ⟨fun h => key ⟨h.1, fun c hc => ?_⟩, fun i hi => key (name_none hn hi), key⟩
  obtain ⟨c', hc', h3, _⟩ := h.2
  rw [hc', Option.some.injEq] at hc
  exact hc ▸ h3

theorem base_name (hn : Names g con I chart) (d : GTm → W) {y : GTm} {i : Nat} (h : hfn y.1 = some (g.name i)) : base g con d y = 0 := if_pos (name_none hn h)

theorem base_tab (hn : Names g con I chart) {d : GTm → W} (hd : Data g con I chart d) : Tab g con I chart (base g con d) := by
  refine ⟨fun i t _ y hy h => ?_, fun y hy => ?_, fun y hy => ?_⟩
  · exact (h (base_name hn d (abbr_fn hy _))).elim
  · unfold base
    rw [if_neg (cst_not hn hy).2.2, hd.con y hy]
  · unfold base
    rw [if_neg, hd.zero y hy]
    rintro ⟨h, _⟩
    rw [bval_none_iff (W := W), hy] at h
    cases h

theorem zero_not {ops : Ops} {y : GTm} (h : bval ops y.1 = some (0 : W)) : bval (W := Nat) ops y.1 ≠ none := by
  intro h'
  rw [bval_none_iff (W := W), h] at h'
  cases h'

theorem it_tab (st : Setting g con I L K chart) (hn : Names g con I chart) {f : Nat} {inf : W} {p q : List (WRule W)} (hp : ∀ r ∈ p, AOk g r)
    (e : abbreviate g f K chart inf p = some q) {d : GTm → W} (hd : Data g con I chart d) : ∀ n, Tab g con I chart (it q d (base g con d) n)
  | 0 => base_tab hn hd
  | n + 1 => by
    obtain ⟨h1, h2⟩ := C68_step st hn hp e (it_tab st hn hp e hd n)
    refine ⟨fun i t hi y hy h => ?_, fun y hy => ?_, fun y hy => ?_⟩
    · by_contra hs
      apply h
      simp only [it]
      rw [h1 i t y hi hy, if_neg hs, hd.names _ i (abbr_fn hy _), add_zero]
    · simp only [it]
      rw [h2 y (cst_not hn hy).2.1, sum_inst_zero st hn (cst_not hn hy).1 _, add_zero, hd.con y hy]
    · simp only [it]
      rw [h2 y fun i hi => zero_not hy (name_none hn hi).1, sum_inst_zero st hn (fun hpl => zero_not hy hpl.1) _, add_zero, hd.zero y hy]

end

section
variable [OSemi W] {K : Nat} {g : Cfg} {con : Const → Prop} {I : Set Tm} {L : Finset Nat} {chart : List Ty}

theorem it_sandwich {p : List (WRule W)} {d c : GTm → W} (hc : ∀ x, c x ≤ d x) : ∀ n x, rounds p d n x ≤ it p d c n x ∧ it p d c n x ≤ rounds p d (n + 1) x
  | 0, x => ⟨OSemi.zero_le' _, le_trans (hc x) (by
      have := OSemi.add_le (le_refl (d x)) (OSemi.zero_le' (T p (rounds p d 0) x))
      rwa [add_zero] at this)⟩
  | n + 1, x => ⟨OSemi.add_le (le_refl _) (T_mono (fun y => (it_sandwich hc n y).1) p x), OSemi.add_le (le_refl _) (T_mono (fun y => (it_sandwich hc n y).2) p x)⟩

theorem T_mono_on {v w : GTm → W} {p : List (WRule W)} (h : ∀ r ∈ p, ∀ q, .sub q ∈ r.body → ∀ θ, v (gsub θ q) ≤ w (gsub θ q)) (x : GTm) : T p v x ≤ T p w x := by
  have hb : ∀ (θ : Nat → GTm) (b : List (Lit W)), (∀ q, .sub q ∈ b → v (gsub θ q) ≤ w (gsub θ q)) → bv v θ b ≤ bv w θ b := by
    intro θ b
    induction b with
    | nil => intro _; exact le_refl _
    | cons l b ih =>
      intro hq
      rw [bv_cons, bv_cons]
      refine OSemi.mul_le ?_ (ih fun q hq' => hq q (by simp [hq']))
      cases l with
      | val k => exact le_refl _
      | sub t => exact hq t (by simp)
  induction p with
  | nil => exact le_refl _
  | cons r p ih =>
    rw [T_cons, T_cons]
    refine OSemi.add_le ?_ (ih fun r' hr' => h r' (by simp [hr']))
    unfold contrib
    refine OSemi.isum_le fun a => ?_
    split
    · exact hb _ _ fun q hq => h r (by simp) q hq _
    · exact le_refl _

/-- one term of a sum -/
theorem le_sum {α : Type} {l : List α} {F : α → W} {a : α} (ha : a ∈ l) : F a ≤ (l.map F).sum := by
  induction l with
  | nil => cases ha
  | cons b l ih =>
    rw [List.map_cons, List.sum_cons]
    rcases List.mem_cons.1 ha with rfl | ha
    · have := OSemi.add_le (le_refl (F a)) (OSemi.zero_le' (l.map F).sum)
      rwa [add_zero] at this
    · have := OSemi.add_le (OSemi.zero_le' (F b)) (ih ha)
      rwa [zero_add] at this

theorem base_le (d : GTm → W) (y : GTm) : base g con d y ≤ d y := by
  unfold base
  split
  · exact OSemi.zero_le' _
  · exact le_refl _

open Classical in
/-- the value of an item is that of its only abbreviation -/
theorem dec_at (st : Setting g con I L K chart) (hn : Names g con I chart) {f : Nat} {inf : W} {p q : List (WRule W)}
    (e : abbreviate g f K chart inf p = some q) {w : GTm → W} (hw : Tab g con I chart w) {i : Nat} {t : Ty} (hi : chart[i]? = some t) {y : GTm} (hs : Sat I t y) :
    dec g.types.ops g.name chart w y = w (abbr (g.name i) t y) := by
  unfold dec
  rw [if_pos (inst_plain st hn (List.mem_of_getElem? hi) hs.inst).1, sum_at hi, if_pos hs.inst]
  intro z hz hz2
  split
  · next hin =>
    by_contra hne
    exact hz2 (C68_disjoint st e (mem_zip hz) hi (hw.typ _ _ (mem_zip hz) y hin hne) hs)
  · rfl

theorem dec_none {w : GTm → W} (hw : Tab g con I chart w) {y : GTm} (hb : bval (W := Nat) g.types.ops y.1 = none) (h : ∀ t ∈ chart, ¬ Sat I t y) :
    dec g.types.ops g.name chart w y = 0 := by
  classical
  unfold dec
  rw [if_pos hb]
  apply List.sum_eq_zero
  intro x hx
  obtain ⟨z, hz, rfl⟩ := List.mem_map.1 hx
  split
  · next hin =>
    by_contra hne
    exact h _ (mem_chart hz) (hw.typ _ _ (mem_zip hz) y hin hne)
  · rfl

/-- every item of the program with a value belongs to a type -/
def Covers (g : Cfg) (con : Const → Prop) (I : Set Tm) (chart : List Ty) (p : List (WRule W)) (d : GTm → W) : Prop :=
  ∀ n y, Plain g con y → rounds p d n y ≠ 0 → ∃ t ∈ chart, Sat I t y

variable {f : Nat} {inf : W} {p q : List (WRule W)} {d : GTm → W}

theorem sub_cases {r : WRule W} (hr : AOk g r) (hpl : PlainSubs g con r) {u : Tm} (hu : .sub u ∈ r.body) (θ : Nat → GTm) :
    Plain g con (gsub θ u) ∨ bval (W := Nat) g.types.ops (gsub θ u).1 ≠ none := by
  obtain ⟨c, as, rfl, _⟩ := hr.asked u hu
  by_cases hb : bval (W := Nat) g.types.ops (gsub θ (.app (.con c :: as))).1 = none
  · left
    refine ⟨hb, c, by simp [gsub, hfn], ?_⟩
    rcases hpl _ hu with h | h
    · rw [bval_builtin, h] at hb
      cases hb
    · exact h c rfl
  · exact .inr hb

/-- builtins have their data as values -/
theorem it_builtin (st : Setting g con I L K chart) (hn : Names g con I chart) (hp : ∀ r ∈ p, AOk g r) (e : abbreviate g f K chart inf p = some q)
    (hd : Data g con I chart d) {y : GTm} (hb : bval (W := Nat) g.types.ops y.1 ≠ none) : ∀ n, it q d (base g con d) n y = d y
  | 0 => if_neg fun h => hb h.1
  | n + 1 => by
    simp only [it]
    rw [(C68_step st hn hp e (it_tab st hn hp e hd n)).2 y fun i hi => hb (name_none hn hi).1, sum_inst_zero st hn (fun hpl => hb hpl.1) _, add_zero]

/-- no rule has a builtin as its head -/
theorem T_builtin (hp : ∀ r ∈ p, AOk g r) {v : GTm → W} {y : GTm} (hb : bval (W := Nat) g.types.ops y.1 ≠ none) : T p v y = 0 := by
  classical
  apply List.sum_eq_zero
  intro x hx
  obtain ⟨r, hr, rfl⟩ := List.mem_map.1 hx
  unfold contrib
  refine (isum_congr fun a => if_neg ?_).trans isum_zero
  rintro rfl
  apply hb
  obtain ⟨c, as, e, h1, h2⟩ := (hp r hr).user
  rw [e, bval_builtin]
  exact builtin_false (fun o x y h _ => by rw [h1] at h; cases h) fun _ _ h _ => h2 h

theorem plain_name {y : GTm} (h : Plain g con y) (i : Nat) : hfn y.1 ≠ some (g.name i) := by
  obtain ⟨_, c, hc, _, h2⟩ := h
  rw [hc, ne_eq, Option.some.injEq]
  exact h2 i

theorem base_plain {y : GTm} (h : Plain g con y) : base g con d y = 0 := by
  obtain ⟨hb, c, hc, h1, _⟩ := h
  refine if_pos ⟨hb, fun c' hc' => ?_⟩
  rw [hc, Option.some.injEq] at hc'
  exact hc' ▸ h1

/-- an item of an input type has its data as value -/
theorem it_input (st : Setting g con I L K chart) (hn : Names g con I chart) (hp : ∀ r ∈ p, AOk g r) (e : abbreviate g f K chart inf p = some q)
    (hd : Data g con I chart d) {y : GTm} (hy : Plain g con y) (hout : ∀ t ∈ chart, ¬ IsIn g t → ¬ Sat I t y) (n : Nat) : it q d (base g con d) (n + 1) y = d y := by
  classical
  have hw := it_tab st hn hp e hd n
  simp only [it]
  rw [(C68_step st hn hp e hw).2 y (plain_name hy)]
  have : (chart.zipIdx.map fun z => if ¬ IsIn g z.1 ∧ Inst z.1.1 y then it q d (base g con d) n (abbr (g.name z.2) z.1 y) else 0).sum = 0 := by
    apply List.sum_eq_zero
    intro x hx
    obtain ⟨z, hz, rfl⟩ := List.mem_map.1 hx
    split
    · next h =>
      by_contra hne
      exact hout _ (mem_chart hz) h.1 (hw.typ _ _ (mem_zip hz) y h.2 hne)
    · rfl
  rw [this, add_zero]

/-- the abbreviations have no more than the values of the items -/
theorem upper (st : Setting g con I L K chart) (hn : Names g con I chart) (hp : ∀ r ∈ p, AOk g r) (hpl : ∀ r ∈ p, PlainSubs g con r) (e : abbreviate g f K chart inf p = some q)
    (hd : Data g con I chart d) : ∀ n i t, chart[i]? = some t → ∀ y, Sat I t y → it q d (base g con d) n (abbr (g.name i) t y) ≤ it p d (base g con d) n y
  | 0, i, t, hi, y, hs => by
    show base g con d _ ≤ _
    rw [base_name hn d (abbr_fn hs.inst _)]
    exact OSemi.zero_le' _
  | n + 1, i, t, hi, y, hs => by
    have hw := it_tab st hn hp e hd n
    show d _ + T q _ _ ≤ d y + T p _ y
    rw [hd.names _ i (abbr_fn hs.inst _), zero_add, (C68_step st hn hp e hw).1 i t y hi hs.inst, if_pos hs, add_comm]
    refine OSemi.add_le ?_ (T_mono_on (fun r hr u hu θ => ?_) y)
    · split
      · next hin =>
        have hpy := inst_plain st hn (List.mem_of_getElem? hi) hs.inst
        cases n with
        | zero =>
          show base g con d y ≤ d y
          exact base_le d y
        | succ n =>
          rw [it_input st hn hp e hd hpy]
          intro u hu hnin hsu
          obtain ⟨j, hj⟩ := List.mem_iff_getElem?.1 hu
          obtain rfl := C68_disjoint st e hi hj hs hsu
          rw [hi] at hj
          cases hj
          exact hnin hin
      · exact OSemi.zero_le' _
    · rcases sub_cases (hp r hr) (hpl r hr) hu θ with h | h
      · by_cases hc : ∃ u' ∈ chart, Sat I u' (gsub θ u)
        · obtain ⟨u', hu', hsu⟩ := hc
          obtain ⟨j, hj⟩ := List.mem_iff_getElem?.1 hu'
          rw [dec_at st hn e hw hj hsu]
          exact upper st hn hp hpl e hd n j u' hj _ hsu
        · rw [dec_none hw h.1 fun t ht hs => hc ⟨t, ht, hs⟩]
          exact OSemi.zero_le' _
      · unfold dec
        rw [if_neg h, it_builtin st hn hp e hd h]
        cases n with
        | zero => exact le_of_eq (if_neg fun h' => h h'.1).symm
        | succ n =>
          have := OSemi.add_le (le_refl (d (gsub θ u))) (OSemi.zero_le' (T p (it p d (base g con d) n) (gsub θ u)))
          rwa [add_zero] at this

/-- ... and, one round later, no less -/
theorem lower (st : Setting g con I L K chart) (hn : Names g con I chart) (hp : ∀ r ∈ p, AOk g r) (hpl : ∀ r ∈ p, PlainSubs g con r) (e : abbreviate g f K chart inf p = some q)
    (hd : Data g con I chart d) (hcv : Covers g con I chart p d) : ∀ n i t, chart[i]? = some t → ∀ y, Sat I t y →
      it p d (base g con d) n y ≤ it q d (base g con d) (n + 1) (abbr (g.name i) t y)
  | 0, i, t, hi, y, hs => by
    show base g con d y ≤ _
    rw [base_plain (inst_plain st hn (List.mem_of_getElem? hi) hs.inst)]
    exact OSemi.zero_le' _
  | n + 1, i, t, hi, y, hs => by
    have hw := it_tab st hn hp e hd (n + 1)
    show d y + T p _ y ≤ d _ + T q _ _
    rw [hd.names _ i (abbr_fn hs.inst _), zero_add, (C68_step st hn hp e hw).1 i t y hi hs.inst, if_pos hs, add_comm]
    refine OSemi.add_le (T_mono_on (fun r hr u hu θ => ?_) y) ?_
    · rcases sub_cases (hp r hr) (hpl r hr) hu θ with h | h
      · by_cases hz : it p d (base g con d) n (gsub θ u) = 0
        · rw [hz]
          exact OSemi.zero_le' _
        · obtain ⟨u', hu', hsu⟩ := hcv (n + 1) _ h fun h0 => hz (le_antisymm (h0 ▸ (it_sandwich (base_le d) n _).2) (OSemi.zero_le' _))
          obtain ⟨j, hj⟩ := List.mem_iff_getElem?.1 hu'
          rw [dec_at st hn e hw hj hsu]
          exact lower st hn hp hpl e hd hcv n j u' hj _ hsu
      · unfold dec
        rw [if_neg h, it_builtin st hn hp e hd h]
        cases n with
        | zero => exact le_of_eq (if_neg fun h' => h h'.1)
        | succ n =>
          show d _ + T p _ _ ≤ _
          rw [T_builtin hp h, add_zero]
    · split
      · next hin =>
        have := OSemi.add_le (le_refl (d y)) (OSemi.zero_le' (T q (it q d (base g con d) n) y))
        rw [add_zero] at this
        exact this
      · next hin => rw [hd.typ t (List.mem_of_getElem? hi) hin y hs]

/-- **C68, abbreviation by types keeps the values.**  For every program whose rules can be abbreviated and every chart
that covers the items with a value: round by round, an abbreviation has the value of the item it stands for, if this
item belongs to the type, and no value otherwise; and every item that is not of an input type has its value. -/
theorem C68_values (st : Setting g con I L K chart) (hn : Names g con I chart) (hp : ∀ r ∈ p, AOk g r) (hpl : ∀ r ∈ p, PlainSubs g con r) (e : abbreviate g f K chart inf p = some q)
    (hd : Data g con I chart d) (hcv : Covers g con I chart p d) :
    (∀ i t y, chart[i]? = some t → Sat I t y → ∀ n,
      rounds q d n (abbr (g.name i) t y) ≤ rounds p d (n + 1) y ∧ rounds p d n y ≤ rounds q d (n + 2) (abbr (g.name i) t y)) ∧
    (∀ i t y, chart[i]? = some t → Inst t.1 y → ¬ Sat I t y → ∀ n, rounds q d n (abbr (g.name i) t y) = 0) ∧
    ∀ y, Plain g con y → (∀ t ∈ chart, IsIn g t → ¬ Sat I t y) → ∀ n, rounds q d n y ≤ rounds p d (n + 1) y ∧ rounds p d n y ≤ rounds q d (n + 3) y := by
  classical
  have hq := it_sandwich (p := q) (base_le (g := g) (con := con) d)
  have hps := it_sandwich (p := p) (base_le (g := g) (con := con) d)
  have hup := upper st hn hp hpl e hd
  have hlo := lower st hn hp hpl e hd hcv
  refine ⟨fun i t y hi hs n => ⟨?_, ?_⟩, fun i t y hi hy hs n => ?_, fun y hy hout n => ⟨?_, ?_⟩⟩
  · exact ((hq n _).1.trans (hup n i t hi y hs)).trans (hps n y).2
  · exact ((hps n y).1.trans (hlo n i t hi y hs)).trans (hq (n + 1) _).2
  · by_contra hne
    have hw := it_tab st hn hp e hd n
    exact hs (hw.typ i t hi y hy fun h0 => hne (le_antisymm (h0 ▸ (hq n _).1) (OSemi.zero_le' _)))
  · cases n with
    | zero => exact OSemi.zero_le' _
    | succ n =>
      refine (hq (n + 1) y).1.trans ?_
      by_cases hc : ∃ t ∈ chart, Sat I t y
      · obtain ⟨t, ht, hs⟩ := hc
        obtain ⟨i, hi⟩ := List.mem_iff_getElem?.1 ht
        have hnin : ¬ IsIn g t := fun h => hout t ht h hs
        have hw := it_tab st hn hp e hd n
        show d y + T q _ y ≤ _
        rw [hd.typ t ht hnin y hs, zero_add, (C68_step st hn hp e hw).2 y (plain_name hy), sum_at hi, if_pos ⟨hnin, hs.inst⟩]
        · exact ((hup n i t hi y hs).trans (hps n y).2).trans (rounds_succ p d _ y)
        · intro z hz hz2
          split
          · next h =>
            by_contra hne
            exact hz2 (C68_disjoint st e (mem_zip hz) hi (hw.typ _ _ (mem_zip hz) y h.2 hne) hs)
          · rfl
      · rw [it_input st hn hp e hd hy (fun t ht _ hs => hc ⟨t, ht, hs⟩)]
        have := OSemi.add_le (le_refl (d y)) (OSemi.zero_le' (T p (rounds p d (n + 1)) y))
        rwa [add_zero] at this
  · by_cases hz : rounds p d n y = 0
    · rw [hz]
      exact OSemi.zero_le' _
    · obtain ⟨t, ht, hs⟩ := hcv n y hy hz
      obtain ⟨i, hi⟩ := List.mem_iff_getElem?.1 ht
      have hnin : ¬ IsIn g t := fun h => hout t ht h hs
      have hw := it_tab st hn hp e hd (n + 1)
      refine ((hps n y).1.trans (hlo n i t hi y hs)).trans (le_trans ?_ (hq (n + 2) y).2)
      show _ ≤ d y + T q _ y
      rw [(C68_step st hn hp e hw).2 y (plain_name hy)]
      have h1 : it q d (base g con d) (n + 1) (abbr (g.name i) t y) ≤ _ := le_trans (le_of_eq (if_pos (show ¬ IsIn g t ∧ Inst t.1 y from ⟨hnin, hs.inst⟩)).symm)
        (le_sum (F := fun z : Ty × Nat => if ¬ IsIn g z.1 ∧ Inst z.1.1 y then it q d (base g con d) (n + 1) (abbr (g.name z.2) z.1 y) else 0)
          (a := (t, i)) (List.mem_zipIdx_iff_getElem?.2 hi))
      have h2 := OSemi.add_le (OSemi.zero_le' (d y)) h1
      rwa [zero_add] at h2

/-- **C68, in the limit**: the values of the items of types that are not inputs, and those of the abbreviations, have the
same upper bounds before and after. -/
theorem C68_limit (st : Setting g con I L K chart) (hn : Names g con I chart) (hp : ∀ r ∈ p, AOk g r) (hpl : ∀ r ∈ p, PlainSubs g con r) (e : abbreviate g f K chart inf p = some q)
    (hd : Data g con I chart d) (hcv : Covers g con I chart p d) (b : W) :
    (∀ i t y, chart[i]? = some t → Sat I t y → ((∀ n, rounds q d n (abbr (g.name i) t y) ≤ b) ↔ ∀ n, rounds p d n y ≤ b)) ∧
    ∀ y, Plain g con y → (∀ t ∈ chart, IsIn g t → ¬ Sat I t y) → ((∀ n, rounds q d n y ≤ b) ↔ ∀ n, rounds p d n y ≤ b) := by
  obtain ⟨h1, _, h3⟩ := C68_values st hn hp hpl e hd hcv
  exact ⟨fun i t y hi hs => ⟨fun h n => ((h1 i t y hi hs n).2).trans (h _), fun h n => ((h1 i t y hi hs n).1).trans (h _)⟩,
    fun y hy ho => ⟨fun h n => ((h3 y hy ho n).2).trans (h _), fun h n => ((h3 y hy ho n).1).trans (h _)⟩⟩

/-- **C68, with the types of `type_analysis`**: if the chart is the result of the analysis of the program and of its input
types, it covers the items with a value. -/
theorem C68_types {Ti : List (WRule W)} (Wd : TypeAn.World g.types I) (hs : TypeAn.Sound g.types I L) (hr : g.types.rules = TypeAn.toTypeProgram (p ++ Ti))
    (hin : ∀ t ∈ g.types.inputs, vars t ⊆ L) (hD : 0 < g.types.D) {f n k k' : Nat} (hL : ∀ n ∈ L, n < k) (hw : ∀ r ∈ p ++ Ti, TypeAn.WOk g.types L k r)
    (hd : ∀ x, d x ≠ 0 → x.1 ∈ I ∨ TypeAn.Derives (p ++ Ti) I x.1) (hI : ∀ y, Plain g con y → y.1 ∉ I)
    (e : TypeAn.runBasic g.types f n k = some (chart, k')) : Covers g con I chart p d := by
  intro m y hy h
  rcases TypeAn.C61_support Wd hs hr hin hD hL hw hd e h with h | ⟨t, ht, h⟩
  · exact (hI y hy h).elim
  · exact ⟨t, ht, sat_den.2 h⟩

end

/-! ### The rewrites of `Rewrites` -/

section
open Propagate (Env Der Quiet Model Apart Returns Run Odd FAIL fnIs fnc)
open Rewrites (Call Standard boundHook)

/-- propagation rules that derive constraints or contradictions, but no equalities; evaluating a builtin binds nothing -/
structure Calm (E : Env) (ops : Ops) (con : Const → Prop) : Prop where
  heads : ∀ r ∈ E.rules, r.1 = FAIL ∨ Cst ops con r.1
  hooks : E.hooks = boundHook
  bound : con (.str "$bound")
  blt : ∀ q eqs, .yes eqs ∈ E.blt q → eqs = []

theorem callB_nil : ∀ {f : Nat} {t u : Tm}, Rewrites.callB [] f t = some u → u = t := by
  intro f
  induction f with
  | zero => intro t u e; simp [Rewrites.callB] at e
  | succ f ih =>
    intro t u e
    simp only [Rewrites.callB, Rewrites.lookup, List.reverse_nil, List.findSome?_nil] at e
    split at e
    · next as =>
      simp only [Option.map_eq_some_iff] at e
      obtain ⟨us, h1, rfl⟩ := e
      rw [allSome_eq_some] at h1
      congr 1
      refine List.ext_getElem? fun i => ?_
      have := congrArg (fun l => l[i]?) h1
      simp only [List.getElem?_map] at this
      cases ha : as[i]? with
      | none =>
        rw [ha] at this
        cases hu : us[i]? with
        | none => rfl
        | some u => rw [hu] at this; simp at this
      | some a =>
        rw [ha] at this
        cases hu : us[i]? with
        | none => rw [hu] at this; simp at this
        | some u =>
          rw [hu] at this
          simp only [Option.map_some, Option.some.injEq] at this
          rw [ih this]
    · simp only [Option.some.injEq] at e
      exact e.symm

theorem finish_app {f : Nat} {dc ui afm : Bool} {R : Ty} {st : Propagate.St} {hd : Tm} {bd : List Tm} (e : Rewrites.finish f dc ui afm R st = .ty hd bd) :
    ∀ y ∈ bd, Rewrites.isApp y = true := by
  unfold Rewrites.finish at e
  split at e
  · cases e
  · split at e
    · next hall =>
      obtain ⟨_, h2, _⟩ := Rewrites.insts_ty e
      intro y hy
      exact List.all_eq_true.1 hall y (List.mem_dedup.1 (h2 hy))
    · cases e

section
variable {E : Env} {ops : Ops} {con : Const → Prop} {D : List Tm}

/-- the consequences of constraints are constraints, over the same variables -/
theorem Calm.der (hE : Calm E ops con) (hrr : ∀ r ∈ E.rules, ∀ n ∈ vars r.1, n ∈ varsL r.2) (hD : ∀ c ∈ D, Cst ops con c ∨ ∃ a, c = .con a) {x : Tm} (h : Der E D x) :
    (Cst ops con x ∨ ∃ a, x = .con a) ∧ vars x ⊆ varsL D := by
  induction h with
  | input hc => exact ⟨hD _ hc, fun n hn => mem_varsL.2 ⟨_, hc, hn⟩⟩
  | @rule r θ hr hb hf ih =>
    refine ⟨.inl ((((hE.heads r hr).resolve_left fun h => hf ?_)).sub θ), fun n hn => ?_⟩
    · rw [h]; simp [FAIL]
    · obtain ⟨m, hm, hn⟩ := Propagate.mem_vars_sub hn
      obtain ⟨b, hb', hm⟩ := mem_varsL.1 (hrr r hr m hm)
      exact (ih b hb').2 (mem_vars_sub.2 ⟨m, hm, hn⟩)
  | @hook c x hc hx ih =>
    rw [hE.hooks] at hx
    unfold boundHook at hx
    split at hx
    · obtain ⟨u, rfl, hu⟩ := Rewrites.recBound_mem _ _ hx
      refine ⟨.inl ⟨_, _, rfl, by simp, by simp, .inl hE.bound⟩, fun n hn => ih.2 (hu ?_)⟩
      simpa using hn
    · cases hx

theorem Calm.quiet (hE : Calm E ops con) (hrr : ∀ r ∈ E.rules, ∀ n ∈ vars r.1, n ∈ varsL r.2) (hD : ∀ c ∈ D, Cst ops con c ∨ ∃ a, c = .con a) : Quiet E D := by
  intro x hx
  have h1 := (hE.der hrr hD hx).1
  refine ⟨?_, fun eqs he => ?_⟩
  · rcases h1 with ⟨s, as, rfl, _, h, _⟩ | ⟨a, rfl⟩
    · cases s with
      | int z => rfl
      | str s => simpa [fnIs] using h
    · rfl
  · unfold Propagate.check at he
    split at he
    · simp only [List.mem_singleton, if_true, Propagate.Chk.yes.injEq] at he
      exact he
    · split at he
      · exact hE.blt _ _ he
      · simp at he

end

/-- the constraints that do not say that something is free -/
def noFree (I : Set Tm) : Set Tm := {x | x ∈ I ∧ fnIs "$free" x = false}

theorem noFree_cst {ops : Ops} {con : Const → Prop} {I : Set Tm} {c : Tm} (h : Cst ops con c ∨ (∃ a, c = .con a) ∨ ∃ n b, c = eqT (.var n) b) (θ : Nat → GTm) :
    (gsub θ c).1 ∈ noFree I ↔ (gsub θ c).1 ∈ I := by
  refine ⟨fun h => h.1, fun hI => ⟨hI, ?_⟩⟩
  rcases h with ⟨s, as, rfl, hs, _⟩ | ⟨a, rfl⟩ | ⟨n, b, rfl⟩
  · rw [TypeAn.gsub_eq, sub_app, List.map_cons, sub_con]
    cases s with
    | int z => rfl
    | str s => simpa [fnIs] using hs
  · simp [TypeAn.gsub_eq, fnIs]
  · simp [TypeAn.gsub_eq, fnIs, eqT]

theorem Calm.model {E : Env} {ops : Ops} {con : Const → Prop} {I : Set Tm} (hE : Calm E ops con) (M : Model E I) : Model E (noFree I) where
  rules := by
    intro r hr θ hθ h
    have h1 := M.rules r hr θ hθ fun b hb => (h b hb).1
    refine ⟨h1, ?_⟩
    rcases hE.heads r hr with e | ⟨s, as, e, hs, _⟩
    · rw [e] at h1
      exact (M.nofail (by simpa [FAIL] using h1)).elim
    · rw [e, sub_app, List.map_cons, sub_con]
      cases s with
      | int z => rfl
      | str s => simpa [fnIs] using hs
  nofail := fun h => M.nofail h.1
  eq := fun a b ha hb => ⟨fun h => (M.eq a b ha hb).1 h.1, fun h => ⟨(M.eq a b ha hb).2 h, rfl⟩⟩
  blt := fun q σ hσ h => M.blt q σ hσ h.1
  hooks := by
    intro q σ hσ h x hx
    refine ⟨M.hooks q σ hσ h.1 x hx, ?_⟩
    rw [hE.hooks] at hx
    unfold boundHook at hx
    split at hx
    · obtain ⟨u, rfl, hu⟩ := Rewrites.recBound_mem _ _ hx
      simp [fnIs]
    · cases hx

theorem noMerge_model {E : Env} {I : Set Tm} (M : Model E (noFree I)) (v : Nat) : Model (Rewrites.noMerge v E) (noFree I) where
  rules := by
    intro r hr θ hθ h
    simp only [Rewrites.noMerge, List.mem_append, List.mem_singleton] at hr
    rcases hr with hr | rfl
    · exact M.rules r hr θ hθ h
    · have := (h (.app [fnc "$free", .var v]) (by simp)).2
      simp [fnIs] at this
  nofail := M.nofail
  eq := M.eq
  blt := M.blt
  hooks := M.hooks

theorem Calm.noMerge {E : Env} {ops : Ops} {con : Const → Prop} (hE : Calm E ops con) (v : Nat) : Calm (Rewrites.noMerge v E) ops con where
  heads := by
    intro r hr
    simp only [Rewrites.noMerge, List.mem_append, List.mem_singleton] at hr
    rcases hr with hr | rfl
    · exact hE.heads r hr
    · exact .inl rfl
  hooks := hE.hooks
  bound := hE.bound
  blt := hE.blt

/-- a call that returns `None` for a type with equalities has met no equality between different compound terms, and nothing
that says that something is free -/
def Tame (E : Env) (sp : Nat → Ty → Res) : Prop :=
  ∀ k (R : Ty), (∃ c ∈ R.2, fnIs "=" c = true) → sp k R = .none → (∀ st, Run E R.2 st → ∀ d ∈ st.chart, ¬ Odd d) ∧
    ∀ f st, Returns E R.2 (some st) → ∀ x ∈ st.chart, ∀ y, Rewrites.callB st.bindings f x = some y → fnIs "$free" y = false

theorem exact_of {E : Env} {ops : Ops} {con : Const → Prop} {I : Set Tm} {L : Finset Nat} (hE : Calm E ops con) (A : Apart E (L : Set Nat) []) (M : Model E (noFree I))
    (hbd : ∀ t, vars t = ∅ → .app [fnc "$bound", t] ∈ I) (one : ∀ a, .con a ∈ I) {ui afm : Bool} {sp : Nat → Ty → Res} (hc : ∀ k R, sp k R ≠ .oof → Call E false ui afm R (sp k R))
    (hodd : Tame E sp) : Exact sp ops con I L := by
  have hA : ∀ R : Ty, (∀ n ∈ TypeAn.tvars R, n ∉ L) → Apart E (L : Set Nat) R.2 := fun R hR =>
    ⟨A.body, A.head, fun c hc n hn => by simpa using hR n (TypeAn.mem_tvars.2 (.inr ⟨c, hc, hn⟩)), A.blt, A.hooks⟩
  have hsol : ∀ (D : List Tm) (θ : Nat → GTm), (∀ c ∈ D, Cst ops con c ∨ (∃ a, c = .con a) ∨ ∃ n b, c = eqT (.var n) b) → (∀ c ∈ D, (gsub θ c).1 ∈ I) →
      Propagate.Solution (noFree I) D fun n => (θ n).1 := fun D θ hD h => ⟨fun n => (θ n).2, fun c hc => (noFree_cst (hD c hc) θ).2 (h c hc)⟩
  -- the bindings of a run without equalities
  have hbind : ∀ (R : Ty), (∀ n ∈ TypeAn.tvars R, n ∉ L) → (∀ c ∈ R.2, Cst ops con c ∨ ∃ a, c = .con a) → ∀ st, Returns E R.2 (some st) →
      st.bindings = [] ∧ ∀ x, x ∈ st.chart ↔ Der E R.2 x := by
    intro R hR hD st hr
    have hQ := hE.quiet A.head hD
    have h1 := ((Propagate.C48_result (hA R hR) hQ hr).1 st rfl).2
    refine ⟨List.eq_nil_iff_forall_not_mem.2 fun b hb => ?_, h1⟩
    obtain ⟨h2, X, Y, rfl⟩ := (Propagate.C48_bindings (hA R hR) hr b).1 hb
    have := (hQ _ ((h1 _).1 h2)).1
    simp [fnIs, eqT] at this
  have hty : ∀ k R hd bd, (∀ n ∈ TypeAn.tvars R, n ∉ L) → (∀ c ∈ R.2, Cst ops con c ∨ ∃ a, c = .con a) → sp k R = .ty hd bd →
      hd = R.1 ∧ (∀ c ∈ bd, Cst ops con c ∧ vars c ⊆ TypeAn.tvars R) ∧ ∀ θ : Nat → GTm, (∀ c ∈ bd, (gsub θ c).1 ∈ I) → ∀ c ∈ R.2, (gsub θ c).1 ∈ I := by
    intro k R hd bd hR hD e
    have h := hc k R (by rw [e]; simp)
    rw [e] at h
    generalize ho : Res.ty hd bd = o at h
    cases h with
    | fail _ => cases ho
    | @done f st hr _ =>
      obtain ⟨hb, hch⟩ := hbind R hR hD st hr
      obtain ⟨h1, h2, h3⟩ := Rewrites.finish_ty ho.symm
      have happ := finish_app ho.symm
      rw [hb] at h1 h2 h3
      refine ⟨callB_nil h1, fun c hcb => ?_, fun θ hθ c hcR => ?_⟩
      · obtain ⟨x, hx, hxc⟩ := h2 c hcb
        rw [← callB_nil hxc] at hx
        obtain ⟨d1, d2⟩ := hE.der A.head hD ((hch c).1 hx)
        refine ⟨d1.resolve_right ?_, fun n hn => TypeAn.mem_tvars.2 (.inr (mem_varsL.1 (d2 hn)))⟩
        rintro ⟨a, rfl⟩
        have := happ _ hcb
        simp [Rewrites.isApp] at this
      · rcases hD c hcR with hcst | ⟨a, rfl⟩
        · have hq := (hE.quiet A.head hD c (.input hcR)).1
          obtain ⟨s, as, rfl, hs, _⟩ := hcst
          obtain ⟨y, hy, hyd⟩ := h3 _ ((hch _).2 (.input hcR)) rfl hq
          have := callB_nil hy
          subst this
          rcases hyd with hyd | ⟨hf, _⟩ | ⟨X, hX⟩ | ⟨X, hX⟩
          · exact hθ _ hyd
          · cases hf
          · rw [hX]
            have := hbd (gsub θ X).1 (gsub θ X).2
            simpa [TypeAn.gsub_eq] using this
          · simp only [Tm.app.injEq, List.cons.injEq, Tm.con.injEq] at hX
            exact (hs hX.1).elim
        · have := one a
          simpa [TypeAn.gsub_eq] using this
  refine ⟨⟨fun k R hR hD e θ hθ => ?_, fun k R hd bd hR hD e => ⟨(hty k R hd bd hR hD e).2.1, fun θ hθ c hcb => ?_⟩⟩,
    fun k R hd bd hR hD e => ⟨(hty k R hd bd hR hD e).1, (hty k R hd bd hR hD e).2.2⟩⟩
  · have h := hc k R (by rw [e]; simp)
    rw [e] at h
    have hden : ¬ Rewrites.Den (noFree I) R = ∅ := fun h => by
      have : (R.1.sub fun n => (θ n).1) ∈ Rewrites.Den (noFree I) R := ⟨_, hsol _ θ hD hθ, rfl⟩
      rw [h] at this
      exact this
    by_cases heq : ∃ c ∈ R.2, fnIs "=" c = true
    · obtain ⟨o1, o2⟩ := hodd k R heq e
      rcases Rewrites.C53_simplify_none (hA R hR) M h with h | ⟨st, h1, d, h2, h3⟩ | ⟨_, f, st, h1, x, h2, y, h3, h4⟩
      · exact hden h
      · exact o1 st h1 d h2 h3
      · rw [o2 f st h1 x h2 y h3] at h4; cases h4
    · have hD : ∀ c ∈ R.2, Cst ops con c ∨ ∃ a, c = .con a := by
        intro c hc
        rcases hD c hc with h | h | ⟨n, b, rfl⟩
        · exact .inl h
        · exact .inr h
        · exact (heq ⟨_, hc, rfl⟩).elim
      rcases Rewrites.C53_simplify_none (hA R hR) M h with h | ⟨st, h1, d, h2, X, Y, rfl, _⟩ | ⟨_, f, st, h1, x, h2, y, h3, h4⟩
      · exact hden h
      · have hQ := hE.quiet A.head hD
        have := (hQ _ ((Propagate.runD (hA R hR) hQ h1).1.der _ h2)).1
        simp [fnIs, eqT] at this
      · obtain ⟨hb, hch⟩ := hbind R hR hD st h1
        rw [hb] at h3
        have := callB_nil h3
        subst this
        rcases (hE.der A.head hD ((hch _).1 h2)).1 with ⟨s, as, rfl, hs, _⟩ | ⟨a, rfl⟩
        · cases s with
          | int z => cases h4
          | str s => simp only [fnIs, beq_iff_eq] at h4; exact hs (by rw [h4])
        · cases h4
  · have h := hc k R (by rw [e]; simp)
    rw [e] at h
    exact ((Rewrites.call_sup (hA R hR) M h (hsol _ θ (fun c hc => (hD c hc).imp_right .inl) hθ)).1.2 c hcb).1

/-- **C68, the rewrites of `Rewrites`** meet the assumptions: if the propagation rules derive no equalities and nothing about
free variables, and `I` is a model of them in which every ground term is bound. -/
theorem C68_rewrites {E : Env} {ops : Ops} {con : Const → Prop} {I : Set Tm} {L : Finset Nat} (hE : Calm E ops con) (A : Apart E (L : Set Nat) []) (M : Model E I)
    (hb : ∀ t, vars t = ∅ → .app [fnc "$bound", t] ∈ I) (one : ∀ a, .con a ∈ I) {v : Nat} (hv : v ∈ L) {ui : Bool} {sp spNF : Nat → Ty → Res}
    (hc : ∀ k R, sp k R ≠ .oof → Call E false ui true R (sp k R)) (hodd : Tame E sp)
    (hcNF : ∀ k R, spNF k R ≠ .oof → Call (Rewrites.noMerge v E) false ui false R (spNF k R)) (hoddNF : Tame (Rewrites.noMerge v E) spNF) :
    Keeps sp ops con I L ∧ Exact spNF ops con I L :=
  ⟨(exact_of hE A (hE.model M) hb one hc hodd).toKeeps,
    exact_of (hE.noMerge v) (Rewrites.noMerge_apart (by simpa using hv) A) (noMerge_model (hE.model M) v) hb one hcNF hoddNF⟩

open Classical in
/-- a call, of types without equalities -/
noncomputable def callFn (E : Env) (ui afm : Bool) (_ : Nat) (R : Ty) : Res :=
  if h : (¬ ∃ c ∈ R.2, fnIs "=" c = true) ∧ ∃ r, Call E false ui afm R r then h.2.choose else .oof

/-- with the rule `n(X) :- m(X)` -/
def mnE : Env := Rewrites.env [(Rewrites.t1 "n" (.var 0), [Rewrites.t1 "m" (.var 0)])]

theorem callFn_spec {E : Env} {ui afm : Bool} {k : Nat} {R : Ty} (h : callFn E ui afm k R ≠ .oof) : Call E false ui afm R (callFn E ui afm k R) := by
  unfold callFn at h ⊢
  split
  · next hx => exact hx.2.choose_spec
  · next hx => rw [dif_neg hx] at h; exact (h rfl).elim

theorem callFn_tame (E : Env) (ui afm : Bool) : Tame E (callFn E ui afm) := by
  intro k R h e
  unfold callFn at e
  rw [dif_neg fun h' => h'.1 h] at e
  cases e

example : Keeps (callFn mnE true true) (fun _ => none) (fun c => c = .str "n" ∨ c = .str "m" ∨ c = .str "$bound")
      (Rewrites.std {x | (∃ c, x = .con c) ∨ (∃ z : Int, 1 ≤ z ∧ (x = Rewrites.t1 "n" (.con (.int z)) ∨ (2 ≤ z ∧ x = Rewrites.t1 "m" (.con (.int z)))))}) {0, 1} ∧
    Exact (callFn (Rewrites.noMerge 1 mnE) true false) (fun _ => none) (fun c => c = .str "n" ∨ c = .str "m" ∨ c = .str "$bound")
      (Rewrites.std {x | (∃ c, x = .con c) ∨ (∃ z : Int, 1 ≤ z ∧ (x = Rewrites.t1 "n" (.con (.int z)) ∨ (2 ≤ z ∧ x = Rewrites.t1 "m" (.con (.int z)))))}) {0, 1} := by
  have hF : ∀ a b : Tm, eqT a b ∉ {x : Tm | (∃ c, x = .con c) ∨ (∃ z : Int, 1 ≤ z ∧ (x = Rewrites.t1 "n" (.con (.int z)) ∨ (2 ≤ z ∧ x = Rewrites.t1 "m" (.con (.int z)))))} := by
    rintro a b (⟨c, h⟩ | ⟨z, _, h | ⟨_, h⟩⟩) <;> simp [eqT, Rewrites.t1] at h
  have hM := Rewrites.std_model (rs := [(Rewrites.t1 "n" (.var 0), [Rewrites.t1 "m" (.var 0)])]) hF
    (by rintro (⟨c, h⟩ | ⟨z, _, h | ⟨_, h⟩⟩) <;> simp [FAIL, Rewrites.t1] at h) (by
      intro r hr θ _ h
      simp only [List.mem_singleton] at hr
      subst hr
      have := h _ (List.mem_singleton.2 rfl)
      simp only [Rewrites.t1, sub_app, List.map_cons, List.map_nil, sub_con, sub_var] at this ⊢
      rcases this with ⟨c, h⟩ | ⟨c, h⟩ | ⟨c, h⟩ | ⟨c, h⟩ | ⟨z, h0, h | ⟨h1, h⟩⟩<;> simp [eqT, Rewrites.t1] at h
      exact .inr (.inr (.inr (.inr ⟨z, h0, .inl (by rw [h])⟩))))
  have hA : Apart (Rewrites.env [(Rewrites.t1 "n" (.var 0), [Rewrites.t1 "m" (.var 0)])]) (({0, 1} : Finset Nat) : Set Nat) [] := by
    refine Rewrites.env_apart (fun r hr n hn => ?_) (fun r hr n hn => ?_) (by simp)
    · simp only [List.mem_singleton] at hr
      subst hr
      simp [Rewrites.t1] at hn
      simp [hn]
    · simp only [List.mem_singleton] at hr
      subst hr
      simpa [Rewrites.t1] using hn
  refine C68_rewrites (v := 1) (ui := true) ⟨fun r hr => ?_, rfl, .inr (.inr rfl), fun q eqs h => ?_⟩ hA hM (fun t _ => .inr (.inl ⟨t, rfl⟩))
    (fun a => .inr (.inr (.inr (.inl ⟨a, rfl⟩)))) (by simp) (fun k R => callFn_spec) (callFn_tame _ _ _) (fun k R => callFn_spec) (callFn_tame _ _ _)
  · simp only [mnE, Rewrites.env, Rewrites.cp, List.mem_singleton] at hr
    subst hr
    exact .inr ⟨_, _, rfl, by simp, by simp, .inl (.inl rfl)⟩
  · simp [mnE, Rewrites.env, Rewrites.cp] at h

end

/-! ### A concrete case -/

section
open TypeAn (mkT gI)

/-- rewrites without rules: constants and repetitions are dropped -/
def exSimp (_ : Nat) (R : Ty) : Res := .ty R.1 (R.2.filter Rewrites.isApp).dedup

/-- `p(X,Y) += e(X,Y). p(X,Z) += p(X,Y) * e(Y,Z).` -/
def exP {W : Type} : List (WRule W) := [⟨mkT "p" [.var 3, .var 4], [.sub (mkT "e" [.var 3, .var 4])]⟩,
  ⟨mkT "p" [.var 3, .var 5], [.sub (mkT "p" [.var 3, .var 4]), .sub (mkT "e" [.var 4, .var 5])]⟩]

/-- the types of the input: `e(a(X),b(Y)) :- n(X), n(Y)` and `e(b(X),a(Y)) :- n(X), n(Y)` -/
def exTi {W : Type} : List (WRule W) := [⟨mkT "e" [mkT "a" [.var 3], mkT "b" [.var 4]], [.sub (mkT "n" [.var 3]), .sub (mkT "n" [.var 4])]⟩,
  ⟨mkT "e" [mkT "b" [.var 3], mkT "a" [.var 4]], [.sub (mkT "n" [.var 3]), .sub (mkT "n" [.var 4])]⟩]

/-- types are compared up to renaming, and up to the order of two constraints -/
def exT : TypeAn.Cfg := ⟨TypeAn.toTypeProgram (exP (W := Nat) ++ exTi), [mkT "n" [.var 0], mkT "$free" [.var 1], mkT "$bound" [.var 2]],
  fun _ => none, .int 1, exSimp,
  fun _ r s => some (decide ((freshT 0 r).1 = (freshT 0 s).1 ∨ (freshT 0 (r.1, r.2.reverse)).1 = (freshT 0 s).1)), 5⟩

/-- `q, qq, qqq, …` -/
def exName (i : Nat) : Const := .str (String.ofList (List.replicate (i + 1) 'q'))

def exG : Cfg := ⟨exT, exSimp, [mkT "e" [.var 3, .var 4]], exName⟩

def exChart : List Ty := [(mkT "e" [mkT "a" [.var 18], mkT "b" [.var 19]], [mkT "n" [.var 18], mkT "n" [.var 19]]),
  (mkT "e" [mkT "b" [.var 20], mkT "a" [.var 21]], [mkT "n" [.var 20], mkT "n" [.var 21]]),
  (mkT "p" [mkT "a" [.var 26], mkT "b" [.var 27]], [mkT "n" [.var 26], mkT "n" [.var 27]]),
  (mkT "p" [mkT "b" [.var 34], mkT "a" [.var 35]], [mkT "n" [.var 34], mkT "n" [.var 35]]),
  (mkT "p" [mkT "a" [.var 40], mkT "a" [.var 41]], [mkT "n" [.var 40], mkT "n" [.var 41]]),
  (mkT "p" [mkT "b" [.var 60], mkT "b" [.var 61]], [mkT "n" [.var 61], mkT "n" [.var 60]])]

/-- the analysis ends with six types, two of them of the input -/
theorem ex_run : TypeAn.runBasic exT 30 10 10 = some (exChart, 84) := by decide +kernel

/-- the abbreviated program: recovery rules for the six types, and six rules over the abbreviations -/
theorem ex_abbr : abbreviate exG 30 84 exChart (77 : Nat) exP = some [
    ⟨mkT "q" [.var 18, .var 19], [.sub (mkT "e" [mkT "a" [.var 18], mkT "b" [.var 19]]), .sub (mkT "n" [.var 18]), .sub (mkT "n" [.var 19])]⟩,
    ⟨mkT "qq" [.var 20, .var 21], [.sub (mkT "e" [mkT "b" [.var 20], mkT "a" [.var 21]]), .sub (mkT "n" [.var 20]), .sub (mkT "n" [.var 21])]⟩,
    ⟨mkT "p" [mkT "a" [.var 26], mkT "b" [.var 27]], [.sub (mkT "qqq" [.var 26, .var 27])]⟩,
    ⟨mkT "p" [mkT "b" [.var 34], mkT "a" [.var 35]], [.sub (mkT "qqqq" [.var 34, .var 35])]⟩,
    ⟨mkT "p" [mkT "a" [.var 40], mkT "a" [.var 41]], [.sub (mkT "qqqqq" [.var 40, .var 41])]⟩,
    ⟨mkT "p" [mkT "b" [.var 60], mkT "b" [.var 61]], [.sub (mkT "qqqqqq" [.var 60, .var 61])]⟩,
    ⟨mkT "qqq" [.var 90, .var 91], [.sub (mkT "q" [.var 90, .var 91])]⟩,
    ⟨mkT "qqqq" [.var 104, .var 105], [.sub (mkT "qq" [.var 104, .var 105])]⟩,
    ⟨mkT "qqqqq" [.var 125, .var 126], [.sub (mkT "qqq" [.var 125, .var 127]), .sub (mkT "qq" [.var 127, .var 126])]⟩,
    ⟨mkT "qqqqqq" [.var 142, .var 143], [.sub (mkT "qqqq" [.var 142, .var 144]), .sub (mkT "q" [.var 144, .var 143])]⟩,
    ⟨mkT "qqq" [.var 153, .var 154], [.sub (mkT "qqqqq" [.var 153, .var 155]), .sub (mkT "q" [.var 155, .var 154])]⟩,
    ⟨mkT "qqqq" [.var 174, .var 175], [.sub (mkT "qqqqqq" [.var 174, .var 176]), .sub (mkT "qq" [.var 176, .var 175])]⟩] := by decide +kernel

theorem ex_some : (abbreviate exG 30 84 exChart (⊤ : ENNReal) exP).isSome = true := by decide +kernel

/-- `n` holds of 1, 2 and 3 -/
def exI : Set Tm := {x | (∃ c, x = .con c) ∨ (∃ y, x = mkT "=" [y, y]) ∨ (∃ y, x = mkT "$free" [y]) ∨ (∃ y, x = mkT "$bound" [y]) ∨
  ∃ z : Int, 1 ≤ z ∧ z ≤ 3 ∧ x = mkT "n" [.con (.int z)]}

def exCon (c : Const) : Prop := c = .str "n" ∨ c = .str "$free" ∨ c = .str "$bound"

theorem exName_ne {i : Nat} {s : String} (h : s.toList.head? ≠ some 'q') : exName i ≠ .str s := by
  intro e
  simp only [exName, Const.str.injEq] at e
  subst e
  simp [List.replicate_succ] at h

theorem exName_inj : Function.Injective exName := by
  intro i j e
  simp only [exName, Const.str.injEq] at e
  have := congrArg (fun s => s.toList.length) e
  simpa using this

theorem exSimp_exact (L : Finset Nat) : Exact exSimp exT.ops exCon exI L where
  none := fun k R _ _ e => by simp [exSimp] at e
  ty := by
    intro k R hd bd _ h e
    simp only [exSimp, Res.ty.injEq] at e
    obtain ⟨rfl, rfl⟩ := e
    refine ⟨fun c hc => ?_, fun θ ho c hc => ?_⟩
    · simp only [List.mem_dedup, List.mem_filter] at hc
      refine ⟨?_, fun n hn => TypeAn.mem_tvars.2 (.inr ⟨c, hc.1, hn⟩)⟩
      rcases h c hc.1 with h | ⟨a, rfl⟩
      · exact h
      · simp [Rewrites.isApp] at hc
    · simp only [List.mem_dedup, List.mem_filter] at hc
      exact ho c hc.1
  back := by
    intro k R hd bd _ h e
    simp only [exSimp, Res.ty.injEq] at e
    obtain ⟨rfl, rfl⟩ := e
    refine ⟨rfl, fun θ ho c hc => ?_⟩
    rcases h c hc with ⟨s, as, rfl, _⟩ | ⟨a, rfl⟩
    · exact ho _ (by simp [List.mem_dedup, List.mem_filter, hc, Rewrites.isApp])
    · exact .inl ⟨a, by simp [TypeAn.gsub_eq]⟩

theorem exSetting : Setting exG exCon exI {0, 1, 2} 84 exChart where
  tys := by
    intro t ht
    simp only [exChart, List.mem_cons, List.not_mem_nil, or_false] at ht
    rcases ht with rfl | rfl | rfl | rfl | rfl | rfl <;>
      exact ⟨⟨_, _, rfl, rfl, by simp⟩, by decide, by decide, by decide⟩
  cst := by
    intro t ht c hc
    simp only [exChart, List.mem_cons, List.not_mem_nil, or_false] at ht
    rcases ht with rfl | rfl | rfl | rfl | rfl | rfl <;>
      (simp only [List.mem_cons, List.not_mem_nil, or_false] at hc
       rcases hc with rfl | rfl <;> exact ⟨_, _, rfl, by simp, by simp, .inl (.inl rfl)⟩)
  avoid := by decide
  low := by decide
  one := fun a => .inl ⟨a, rfl⟩
  eqs := by
    intro a b _ _
    constructor
    · rintro (⟨c, h⟩ | ⟨z, h⟩ | ⟨z, h⟩ | ⟨z, h⟩ | ⟨z, _, _, h⟩) <;> simp [mkT, eqT] at h
      exact h.1.trans h.2.symm
    · rintro rfl
      exact .inr (.inl ⟨a, rfl⟩)
  names := fun i => exName_ne (by decide)
  inj := exName_inj
  ops := ⟨rfl, rfl⟩
  simp := (exSimp_exact _).toKeeps
  simpNF := exSimp_exact _

theorem exNames : Names exG exCon exI exChart where
  head := by
    intro i t ht e
    simp only [exChart, List.mem_cons, List.not_mem_nil, or_false] at ht
    rcases ht with rfl | rfl | rfl | rfl | rfl | rfl <;>
      exact exName_ne (i := i) (by decide) (Option.some.inj e).symm
  fresh := by
    rintro i (h | h | h) <;> exact exName_ne (by decide) h
  ops := fun i => ⟨rfl, exName_ne (by decide)⟩
  heads := by
    intro t ht c e h
    simp only [exChart, List.mem_cons, List.not_mem_nil, or_false] at ht
    rcases ht with rfl | rfl | rfl | rfl | rfl | rfl <;>
      (simp only [mkT, hfn, Option.some.injEq] at e
       subst e
       simp [exCon] at h)
  bound := by
    intro t ht c hc e
    simp only [exChart, List.mem_cons, List.not_mem_nil, or_false] at ht
    rcases ht with rfl | rfl | rfl | rfl | rfl | rfl <;>
      (simp only [List.mem_cons, List.not_mem_nil, or_false] at hc
       rcases hc with rfl | rfl <;> simp [mkT, hfn] at e)

theorem ex_asked {s : String} (h : s = "p" ∨ s = "e") (as : List Tm) : Asked exT (mkT s as) := by
  refine ⟨_, _, rfl, fun p hp => ?_⟩
  simp only [exT, List.mem_cons, List.not_mem_nil, or_false] at hp
  rcases h with rfl | rfl <;> rcases hp with rfl | rfl | rfl <;> exact ⟨_, _, rfl, by simp⟩

theorem ex_user {s : String} (h : s = "p" ∨ s = "e") (as : List Tm) : TypeAn.User exT (mkT s as) := by
  refine ⟨_, _, rfl, rfl, ?_, fun p hp => ?_⟩
  · rcases h with rfl | rfl <;> simp
  simp only [exT, List.mem_cons, List.not_mem_nil, or_false] at hp
  rcases h with rfl | rfl <;> rcases hp with rfl | rfl | rfl <;> simp [mkT, hfn]

theorem ex_ok : ∀ r ∈ exP (W := W), AOk exG r ∧ PlainSubs exG exCon r := by
  have hpl : ∀ (s : String) as, s = "p" ∨ s = "e" → ∀ c, hfn (mkT s as) = some c → ¬ exCon c ∧ ∀ i, c ≠ exG.name i := by
    intro s as h c e
    simp only [mkT, hfn, Option.some.injEq] at e
    subst e
    refine ⟨?_, fun i h' => ?_⟩
    · rcases h with rfl | rfl <;> simp [exCon]
    · rcases h with rfl | rfl <;> exact exName_ne (by decide) h'.symm
  intro r hr
  simp only [exP, List.mem_cons, List.not_mem_nil, or_false] at hr
  rcases hr with rfl | rfl
  · refine ⟨⟨by simp [bodyVars, litVars, mkT], ⟨_, _, rfl, rfl, by simp⟩, ex_asked (.inl rfl) _, fun q hq => ?_⟩, fun q hq => ?_⟩
    · simp only [List.mem_cons, Lit.sub.injEq, List.not_mem_nil, or_false] at hq
      subst hq; exact ex_asked (.inr rfl) _
    · simp only [List.mem_cons, Lit.sub.injEq, List.not_mem_nil, or_false] at hq
      subst hq; exact .inr (hpl _ _ (.inr rfl))
  · refine ⟨⟨by simp [bodyVars, litVars, mkT], ⟨_, _, rfl, rfl, by simp⟩, ex_asked (.inl rfl) _, fun q hq => ?_⟩, fun q hq => ?_⟩
    · simp only [List.mem_cons, Lit.sub.injEq, List.not_mem_nil, or_false] at hq
      rcases hq with rfl | rfl
      · exact ex_asked (.inl rfl) _
      · exact ex_asked (.inr rfl) _
    · simp only [List.mem_cons, Lit.sub.injEq, List.not_mem_nil, or_false] at hq
      rcases hq with rfl | rfl
      · exact .inr (hpl _ _ (.inl rfl))
      · exact .inr (hpl _ _ (.inr rfl))

theorem exW : TypeAn.World exT exI where
  heads := by
    intro p hp
    simp only [exT, List.mem_cons, List.not_mem_nil, or_false] at hp
    rcases hp with rfl | rfl | rfl <;> exact ⟨_, _, rfl⟩
  eq := by
    rintro a b (⟨c, h⟩ | ⟨z, h⟩ | ⟨z, h⟩ | ⟨z, h⟩ | ⟨z, _, _, h⟩) <;> simp [mkT] at h
    exact h.1.trans h.2.symm
  ops := by intro c o x y h; simp [exT] at h
  con := fun c => .inl ⟨c, rfl⟩
  free := fun x _ => .inr (.inr (.inl ⟨x, rfl⟩))
  input := by
    rintro c as (⟨c, h⟩ | ⟨z, h⟩ | ⟨z, h⟩ | ⟨z, h⟩ | ⟨z, _, _, h⟩)
    · cases h
    all_goals
      simp only [mkT, Tm.app.injEq, List.cons.injEq, Tm.con.injEq] at h
      obtain ⟨rfl, rfl⟩ := h
    · exact .inl ⟨rfl, rfl⟩
    · exact .inr (.inr ⟨mkT "$free" [.var 1], by simp [exT], fun _ => z, by simp [mkT]⟩)
    · exact .inr (.inr ⟨mkT "$bound" [.var 2], by simp [exT], fun _ => z, by simp [mkT]⟩)
    · exact .inr (.inr ⟨mkT "n" [.var 0], by simp [exT], fun _ => .con (.int z), by simp [mkT]⟩)

theorem exSound : TypeAn.Sound exT exI {0, 1, 2} where
  sup := by
    intro k R hd bd _ e
    simp only [exT, exSimp, Res.ty.injEq] at e
    obtain ⟨rfl, rfl⟩ := e
    intro x hx
    obtain ⟨σ, h1, rfl⟩ := TypeAn.mem_den.1 hx
    exact TypeAn.mem_den.2 ⟨σ, fun c hc => h1 c (by simp only [List.mem_dedup, List.mem_filter] at hc; exact hc.1), rfl⟩
  none := fun k R _ e => by simp [exT, exSimp] at e
  fn := by
    intro k R hd bd c e h
    simp only [exT, exSimp, Res.ty.injEq] at e
    obtain ⟨rfl, rfl⟩ := e
    exact h
  cov := by
    intro k r s _ _ e
    simp only [exT, Option.some.injEq, decide_eq_true_eq] at e
    rcases e with e | e
    · rw [← TypeAn.den_fresh exI 0 r, ← TypeAn.den_fresh exI 0 s, e]
    · rw [← TypeAn.den_fresh exI 0 s, ← e, TypeAn.den_fresh]
      intro x hx
      obtain ⟨σ, h1, rfl⟩ := TypeAn.mem_den.1 hx
      exact TypeAn.mem_den.2 ⟨σ, fun c hc => h1 c (by simpa using hc), rfl⟩

theorem ex_wok : ∀ r ∈ exP (W := W) ++ exTi, TypeAn.WOk exT {0, 1, 2} 10 r := by
  intro r hr
  simp only [exP, exTi, List.cons_append, List.nil_append, List.mem_cons, List.not_mem_nil, or_false] at hr
  rcases hr with rfl | rfl | rfl | rfl
  · refine ⟨TypeAn.path_vs (fun n hn => by simp [Sem.rvars, Sem.bodyVars, Sem.litVars, mkT] at hn; simp; omega), ex_user (.inl rfl) _, fun t ht => ?_⟩
    simp only [List.mem_cons, Lit.sub.injEq, List.not_mem_nil, or_false] at ht
    subst ht; exact ⟨_, _, rfl⟩
  · refine ⟨TypeAn.path_vs (fun n hn => by simp [Sem.rvars, Sem.bodyVars, Sem.litVars, mkT] at hn; simp; omega), ex_user (.inl rfl) _, fun t ht => ?_⟩
    simp only [List.mem_cons, Lit.sub.injEq, List.not_mem_nil, or_false] at ht
    rcases ht with rfl | rfl <;> exact ⟨_, _, rfl⟩
  · refine ⟨TypeAn.path_vs (fun n hn => by simp [Sem.rvars, Sem.bodyVars, Sem.litVars, mkT] at hn; simp; omega), ex_user (.inr rfl) _, fun t ht => ?_⟩
    simp only [List.mem_cons, Lit.sub.injEq, List.not_mem_nil, or_false] at ht
    rcases ht with rfl | rfl <;> exact ⟨_, _, rfl⟩
  · refine ⟨TypeAn.path_vs (fun n hn => by simp [Sem.rvars, Sem.bodyVars, Sem.litVars, mkT] at hn; simp; omega), ex_user (.inr rfl) _, fun t ht => ?_⟩
    simp only [List.mem_cons, Lit.sub.injEq, List.not_mem_nil, or_false] at ht
    rcases ht with rfl | rfl <;> exact ⟨_, _, rfl⟩

open Classical in
/-- the edges `a(1) → b(2)` with the value 2 and `b(2) → a(3)` with the value 5, and the constraints -/
noncomputable def exD (y : GTm) : ENNReal :=
  if y.1 = mkT "e" [mkT "a" [.con (.int 1)], mkT "b" [.con (.int 2)]] then 2
  else if y.1 = mkT "e" [mkT "b" [.con (.int 2)], mkT "a" [.con (.int 3)]] then 5
  else if y.1 ∈ exI then 1 else 0

open Classical in
theorem exD_con {y : GTm} (h : hfn y.1 ≠ some (.str "e")) : exD y = if y.1 ∈ exI then 1 else 0 := by
  unfold exD
  rw [if_neg (fun e => h (by rw [e]; rfl)), if_neg (fun e => h (by rw [e]; rfl))]

theorem exI_hfn {x : Tm} {c : Const} (h : hfn x = some c) (hx : x ∈ exI) : c = .str "=" ∨ exCon c := by
  rcases hx with ⟨c, rfl⟩ | ⟨z, rfl⟩ | ⟨z, rfl⟩ | ⟨z, rfl⟩ | ⟨z, _, _, rfl⟩ <;> simp [mkT, hfn] at h <;> subst h <;> simp [exCon]

theorem exData : Data exG exCon exI exChart exD where
  con := by
    rintro y ⟨s, as, e, _, _, h⟩
    refine exD_con fun he => ?_
    rw [e] at he
    simp only [hfn, Option.some.injEq] at he
    subst he
    rcases h with h | h
    · simp [exCon] at h
    · rw [e] at h
      unfold builtin at h
      split at h
      · next e2 => simp only [Tm.app.injEq, List.cons.injEq, Tm.con.injEq] at e2; obtain ⟨rfl, _⟩ := e2; simp [exG, exT] at h
      · cases h
  zero := by
    intro y h
    unfold bval at h
    split at h
    · next c a b e =>
      simp only [exG, exT] at h
      split at h
      · next hc =>
        subst hc
        by_cases hab : a = b
        · simp [hab] at h
        · rw [exD_con (by rw [e]; simp [hfn]), if_neg]
          rw [e]
          intro h'
          exact hab (exW.eq a b h')
      · cases h
    · cases h
  names := by
    intro y i h
    rw [exD_con (by rw [h]; exact fun e => exName_ne (by decide) (Option.some.inj e)), if_neg fun hx => ?_]
    rcases exI_hfn h hx with e | e | e | e <;> exact exName_ne (by decide) e
  typ := by
    intro t ht hin y hs
    have hp : hfn y.1 = some (.str "p") := by
      obtain ⟨φ, rfl, _⟩ := hs
      simp only [exChart, List.mem_cons, List.not_mem_nil, or_false] at ht
      rcases ht with rfl | rfl | rfl | rfl | rfl | rfl
      · exact (hin ⟨_, List.mem_singleton.2 rfl, fun n => if n = 3 then mkT "a" [.con (.int 1)] else if n = 4 then mkT "b" [.con (.int 1)] else .con (.int 1), by simp [mkT]⟩).elim
      · exact (hin ⟨_, List.mem_singleton.2 rfl, fun n => if n = 3 then mkT "b" [.con (.int 1)] else if n = 4 then mkT "a" [.con (.int 1)] else .con (.int 1), by simp [mkT]⟩).elim
      all_goals simp [TypeAn.gsub_eq, mkT, hfn]
    rw [exD_con (by rw [hp]; simp), if_neg fun hx => ?_]
    rcases exI_hfn hp hx with e | e | e | e <;> simp at e

theorem ex_derives {W : Type} {x : GTm} (h : x.1 = mkT "e" [mkT "a" [.con (.int 1)], mkT "b" [.con (.int 2)]] ∨ x.1 = mkT "e" [mkT "b" [.con (.int 2)], mkT "a" [.con (.int 3)]]) :
    TypeAn.Derives (exP (W := W) ++ exTi) exI x.1 := by
  have hn : ∀ z : Int, 1 ≤ z → z ≤ 3 → mkT "n" [.con (.int z)] ∈ exI := fun z h1 h2 => .inr (.inr (.inr (.inr ⟨z, h1, h2, rfl⟩)))
  rcases h with h | h
  · have := TypeAn.Derives.rule (p := exP (W := W) ++ exTi) (I := exI) (r := ⟨mkT "e" [mkT "a" [.var 3], mkT "b" [.var 4]], [.sub (mkT "n" [.var 3]), .sub (mkT "n" [.var 4])]⟩) (fun n => if n = 3 then gI 1 else gI 2) (by simp [exTi]) (fun t ht hm => by
      simp only [List.mem_cons, Lit.sub.injEq, List.not_mem_nil, or_false] at ht
      rcases ht with rfl | rfl
      · exact (hm (by simpa [TypeAn.gsub_eq, mkT, gI] using hn 1 (by omega) (by omega))).elim
      · exact (hm (by simpa [TypeAn.gsub_eq, mkT, gI] using hn 2 (by omega) (by omega))).elim)
    rw [h]
    simpa [TypeAn.gsub_eq, mkT, gI] using this
  · have := TypeAn.Derives.rule (p := exP (W := W) ++ exTi) (I := exI) (r := ⟨mkT "e" [mkT "b" [.var 3], mkT "a" [.var 4]], [.sub (mkT "n" [.var 3]), .sub (mkT "n" [.var 4])]⟩) (fun n => if n = 3 then gI 2 else gI 3) (by simp [exTi]) (fun t ht hm => by
      simp only [List.mem_cons, Lit.sub.injEq, List.not_mem_nil, or_false] at ht
      rcases ht with rfl | rfl
      · exact (hm (by simpa [TypeAn.gsub_eq, mkT, gI] using hn 2 (by omega) (by omega))).elim
      · exact (hm (by simpa [TypeAn.gsub_eq, mkT, gI] using hn 3 (by omega) (by omega))).elim)
    rw [h]
    simpa [TypeAn.gsub_eq, mkT, gI] using this

theorem exCovers : Covers exG exCon exI exChart exP exD := by
  refine C68_types (Ti := exTi) exW exSound rfl (by decide) (by decide) (by decide) ex_wok (fun x hx => ?_) (fun y hy hI => ?_) ex_run
  · unfold exD at hx
    split at hx
    · next h => exact .inr (ex_derives (.inl h))
    · split at hx
      · next h => exact .inr (ex_derives (.inr h))
      · split at hx
        · next h => exact .inl h
        · simp at hx
  · obtain ⟨hb, c, hc, hn, _⟩ := hy
    rcases exI_hfn hc hI with rfl | h
    · rcases hI with ⟨c, e⟩ | ⟨z, e⟩ | ⟨z, e⟩ | ⟨z, e⟩ | ⟨z, _, _, e⟩ <;> rw [e] at hc hb <;> simp [mkT, hfn, bval, exG, exT] at hc hb
    · exact hn h

/-- the item `p(a(1),a(3))`, and what stands for it -/
def exY : GTm := ⟨mkT "p" [mkT "a" [.con (.int 1)], mkT "a" [.con (.int 3)]], rfl⟩

theorem exY_sat : Sat exI (mkT "p" [mkT "a" [.var 40], mkT "a" [.var 41]], [mkT "n" [.var 40], mkT "n" [.var 41]]) exY := by
  refine ⟨fun n => if n = 40 then gI 1 else gI 3, Subtype.ext (by simp [TypeAn.gsub_eq, mkT, gI, exY]), fun c hc => ?_⟩
  simp only [List.mem_cons, List.not_mem_nil, or_false] at hc
  rcases hc with rfl | rfl
  · exact .inr (.inr (.inr (.inr ⟨1, by simp, by simp, by simp [TypeAn.gsub_eq, mkT, gI]⟩)))
  · exact .inr (.inr (.inr (.inr ⟨3, by simp, by simp, by simp [TypeAn.gsub_eq, mkT, gI]⟩)))

/-- the abbreviated program gives the item its value, and so does the abbreviation -/
example : ∃ q, abbreviate exG 30 84 exChart (⊤ : ENNReal) exP = some q ∧ ∀ n,
    rounds exP exD n exY ≤ rounds q exD (n + 2) (abbr (exName 4) (mkT "p" [mkT "a" [.var 40], mkT "a" [.var 41]], [mkT "n" [.var 40], mkT "n" [.var 41]]) exY) ∧
    rounds q exD n exY ≤ rounds exP exD (n + 1) exY ∧ rounds exP exD n exY ≤ rounds q exD (n + 3) exY := by
  obtain ⟨q, hq⟩ := Option.isSome_iff_exists.1 ex_some
  obtain ⟨h1, _, h3⟩ := C68_values exSetting exNames (fun r hr => (ex_ok r hr).1) (fun r hr => (ex_ok r hr).2) hq exData exCovers
  refine ⟨q, hq, fun n => ⟨(h1 4 _ exY rfl exY_sat n).2, h3 exY ⟨rfl, .str "p", rfl, by simp [exCon], fun i e => exName_ne (by decide) e.symm⟩ (fun t ht hin hs => ?_) n⟩⟩
  obtain ⟨φ, e, _⟩ := hs
  have e' := congrArg (fun y : GTm => y.1) e
  simp only [exChart, List.mem_cons, List.not_mem_nil, or_false] at ht
  obtain ⟨u, hu, τ, hτ⟩ := hin
  simp only [exG, List.mem_singleton] at hu
  subst hu
  rcases ht with rfl | rfl | rfl | rfl | rfl | rfl <;> first | (simp [mkT] at hτ; done) | (simp [TypeAn.gsub_eq, mkT, exY] at e')

/-- one step of the abbreviated program on the data -/
example {q : List (WRule ENNReal)} (e : abbreviate exG 30 84 exChart (⊤ : ENNReal) exP = some q) {w : GTm → ENNReal} (hw : Tab exG exCon exI exChart w) :
    T q w (abbr (exName 4) (mkT "p" [mkT "a" [.var 40], mkT "a" [.var 41]], [mkT "n" [.var 40], mkT "n" [.var 41]]) exY) =
      T exP (dec exT.ops exName exChart w) exY := by
  show T q w (abbr (exG.name 4) _ exY) = _
  rw [(C68_step exSetting exNames (fun r hr => (ex_ok r hr).1) e hw).1 4 _ exY rfl exY_sat.inst, if_pos exY_sat, if_neg, add_zero]
  · rfl
  rintro ⟨u, hu, τ, hτ⟩
  simp only [exG, List.mem_singleton] at hu
  subst hu
  simp [mkT] at hτ

end

end Abbreviate
end Verif
