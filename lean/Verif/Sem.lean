/-
What a weighted program means: the specification against which program transformations are stated.
Nothing here models a function of the repository; it is the textbook semantics of weighted logic programs:
a rule contributes to the ground item `x` the sum, over all ground substitutions of its variables whose
head is `x`, of the product of the values of its body.
-/
import Verif.ProgUpdate
import Mathlib.Algebra.BigOperators.Ring.List
import Mathlib.SetTheory.Cardinal.Arithmetic
import Mathlib.Topology.Algebra.InfiniteSum.ENNReal
import Mathlib.Tactic.Ring

set_option linter.unusedSectionVars false
set_option linter.unusedSimpArgs false

namespace Verif
open Tm
namespace Sem

/-- Commutative semirings with sums of arbitrary families (as the code assumes whenever it writes
`Semiring.multiple(inf)`): sums can be reindexed, split and distributed over. -/
class CSemi (W : Type) extends CommSemiring W where
  isum : {ι : Type} → (ι → W) → W
  isum_equiv : ∀ {ι κ : Type} (e : ι ≃ κ) (f : κ → W), isum (fun i => f (e i)) = isum f
  isum_empty : ∀ f : Empty → W, isum f = 0
  isum_unit : ∀ f : Unit → W, isum f = f ()
  isum_sum : ∀ {ι κ : Type} (f : ι ⊕ κ → W), isum f = isum (fun i => f (.inl i)) + isum (fun k => f (.inr k))
  isum_sigma : ∀ {ι : Type} {κ : ι → Type} (f : (Σ i, κ i) → W), isum f = isum fun i => isum fun k => f ⟨i, k⟩
  mul_isum : ∀ {ι : Type} (a : W) (f : ι → W), a * isum f = isum fun i => a * f i

export CSemi (isum isum_equiv isum_sum isum_sigma mul_isum isum_unit isum_empty)

/-- ... and an order in which everything is monotone and zero is least -/
class OSemi (W : Type) extends CSemi W, PartialOrder W where
  zero_le' : ∀ a : W, 0 ≤ a
  add_le : ∀ {a b c d : W}, a ≤ b → c ≤ d → a + c ≤ b + d
  mul_le : ∀ {a b c d : W}, a ≤ b → c ≤ d → a * c ≤ b * d
  isum_le : ∀ {ι : Type} {f g : ι → W}, (∀ i, f i ≤ g i) → isum f ≤ isum g

/-! ### Sums -/
section
variable {W : Type} [CSemi W] {ι κ : Type}

theorem isum_zero : isum (fun _ : ι => (0 : W)) = 0 := by
  have := mul_isum (0 : W) (fun _ : ι => (0 : W))
  simpa using this.symm

theorem isum_congr {f g : ι → W} (h : ∀ i, f i = g i) : isum f = isum g := by rw [funext h]

theorem isum_mul (f : ι → W) (a : W) : isum f * a = isum fun i => f i * a := by
  rw [mul_comm, mul_isum]; exact isum_congr fun i => mul_comm _ _

theorem isum_prod (f : ι × κ → W) : isum f = isum fun i => isum fun k => f (i, k) := by
  rw [← isum_equiv (Equiv.sigmaEquivProd ι κ) f, isum_sigma]; rfl

theorem isum_comm (f : ι → κ → W) : isum (fun i => isum fun k => f i k) = isum fun k => isum fun i => f i k := by
  rw [← isum_prod (fun p : ι × κ => f p.1 p.2), ← isum_prod (fun p : κ × ι => f p.2 p.1)]
  exact isum_equiv (Equiv.prodComm ι κ) (fun p : κ × ι => f p.2 p.1)

theorem isum_add (f g : ι → W) : isum (fun i => f i + g i) = isum f + isum g := by
  have h1 : ∀ i, f i + g i = isum (fun b : Unit ⊕ Unit => Sum.elim (fun _ => f i) (fun _ => g i) b) := fun i => by
    rw [isum_sum, isum_unit, isum_unit]; rfl
  rw [isum_congr h1, isum_comm, isum_sum, isum_unit, isum_unit]; rfl

theorem isum_list {α : Type} (l : List α) (f : α → ι → W) :
    (l.map fun a => isum (f a)).sum = isum fun i => (l.map fun a => f a i).sum := by
  induction l with
  | nil => simp [isum_zero]
  | cons a l ih => simp only [List.map_cons, List.sum_cons, ih, isum_add]

theorem isum_of_isEmpty [IsEmpty ι] (f : ι → W) : isum f = 0 := by
  rw [← isum_equiv (Equiv.equivOfIsEmpty Empty ι) f]; exact isum_empty _

theorem isum_unique [Unique ι] (f : ι → W) : isum f = f default := by
  rw [← isum_equiv (Equiv.ofUnique Unit ι) f, isum_unit]
  exact congrArg f (Subsingleton.elim _ _)

theorem isum_subtype (P : ι → Prop) [DecidablePred P] (f : ι → W) : isum (fun i => if P i then f i else 0) = isum fun i : {i // P i} => f i.1 := by
  rw [← isum_equiv (Equiv.sumCompl P), isum_sum]
  have h1 : isum (fun i : {i // P i} => if P (Equiv.sumCompl P (.inl i)) then f (Equiv.sumCompl P (.inl i)) else 0) =
      isum fun i : {i // P i} => f i.1 := isum_congr fun i => by simp [i.2]
  have h2 : isum (fun i : {i // ¬ P i} => if P (Equiv.sumCompl P (.inr i)) then f (Equiv.sumCompl P (.inr i)) else 0) = 0 := by
    refine (isum_congr fun i => ?_).trans (isum_zero (ι := {i // ¬ P i}))
    simp [i.2]
  rw [h1, h2, add_zero]

theorem isum_single [DecidableEq ι] (a : ι) (f : ι → W) : isum (fun i => if i = a then f i else 0) = f a := by
  rw [isum_subtype]
  exact isum_unique (ι := {i // i = a}) fun i => f i.1

end

/-! ### Ground terms and assignments -/

/-- ground terms -/
abbrev GTm := {t : Tm // Ground t}

/-- an arbitrary ground term -/
def g0 : GTm := ⟨.con (.int 0), by simp [Ground]⟩

theorem ground_sub (θ : Nat → GTm) (t : Tm) : Ground (t.sub fun n => (θ n).1) := by
  unfold Ground
  rw [Finset.eq_empty_iff_forall_notMem]
  intro x hx
  rw [mem_vars_sub] at hx
  obtain ⟨y, _, hy⟩ := hx
  have := (θ y).2
  unfold Ground at this
  rw [this] at hy; simp at hy

/-- the ground instance of `t` under `θ` -/
def gsub (θ : Nat → GTm) (t : Tm) : GTm := ⟨t.sub fun n => (θ n).1, ground_sub θ t⟩

/-- assignments of ground terms to the variables in `V` -/
abbrev Asg (V : Finset Nat) := {n // n ∈ V} → GTm

/-- the assignment as a substitution; other variables do not matter -/
def ext {V : Finset Nat} (a : Asg V) : Nat → GTm := fun n => if h : n ∈ V then a ⟨n, h⟩ else g0

/-- restriction of a substitution -/
def cut (V : Finset Nat) (θ : Nat → GTm) : Asg V := fun n => θ n.1

/-- variables of a body element -/
def litVars {W : Type} : Lit W → Finset Nat
  | .val _ => ∅
  | .sub t => vars t

/-- variables of a body -/
def bodyVars {W : Type} : List (Lit W) → Finset Nat
  | [] => ∅
  | l :: b => litVars l ∪ bodyVars b

/-- variables of a rule -/
def rvars {W : Type} (r : WRule W) : Finset Nat := vars r.head ∪ bodyVars r.body

section
variable {W : Type} [CSemi W]

/-- value of a body element under a substitution -/
def lv (v : GTm → W) (θ : Nat → GTm) : Lit W → W
  | .val k => k
  | .sub t => v (gsub θ t)

/-- value of a body under a substitution -/
def bv (v : GTm → W) (θ : Nat → GTm) (b : List (Lit W)) : W := (b.map (lv v θ)).prod

open Classical in
/-- what the rule contributes to the value of `x` when the values of all items are `v` -/
noncomputable def contrib (r : WRule W) (v : GTm → W) (x : GTm) : W :=
  isum fun a : Asg (rvars r) => if gsub (ext a) r.head = x then bv v (ext a) r.body else 0

/-- the step operator of a program -/
noncomputable def T (p : List (WRule W)) (v : GTm → W) (x : GTm) : W := (p.map fun r => contrib r v x).sum

/-- `v` solves the equations of the program `p` with input data `d` -/
def Sol (p : List (WRule W)) (d : GTm → W) (v : GTm → W) : Prop := ∀ x, v x = d x + T p v x

/-- the rounds of naive evaluation -/
noncomputable def rounds (p : List (WRule W)) (d : GTm → W) : Nat → GTm → W
  | 0 => fun _ => 0
  | n + 1 => fun x => d x + T p (rounds p d n) x

/-- infinitely many times one: `Semiring.multiple(inf)` -/
noncomputable def infty : W := isum fun _ : GTm => (1 : W)

/-! ### Basic facts -/

theorem ext_cut {V : Finset Nat} {θ : Nat → GTm} {n : Nat} (h : n ∈ V) : ext (cut V θ) n = θ n := by
  simp [ext, cut, h]

theorem cut_ext {V : Finset Nat} (a : Asg V) : cut V (ext a) = a := by
  funext n; simp [cut, ext, n.2]

theorem gsub_congr {θ φ : Nat → GTm} {t : Tm} (h : ∀ n ∈ vars t, θ n = φ n) : gsub θ t = gsub φ t :=
  Subtype.ext (sub_congr fun n hn => by rw [h n hn])

theorem lv_congr {v : GTm → W} {θ φ : Nat → GTm} {l : Lit W} (h : ∀ n ∈ litVars l, θ n = φ n) : lv v θ l = lv v φ l := by
  cases l with
  | val k => rfl
  | sub t => simp only [lv]; rw [gsub_congr h]

theorem bv_congr {v : GTm → W} {θ φ : Nat → GTm} : ∀ {b : List (Lit W)}, (∀ n ∈ bodyVars b, θ n = φ n) → bv v θ b = bv v φ b
  | [], _ => rfl
  | l :: b, h => by
    have h2 := bv_congr (v := v) (b := b) fun n hn => h n (by simp [bodyVars, hn])
    have h1 := lv_congr (v := v) (l := l) fun n hn => h n (by simp [bodyVars, hn])
    simp only [bv, List.map_cons, List.prod_cons] at h2 ⊢
    rw [h1, h2]

theorem bv_append (v : GTm → W) (θ : Nat → GTm) (b c : List (Lit W)) : bv v θ (b ++ c) = bv v θ b * bv v θ c := by
  simp [bv]

theorem bv_cons (v : GTm → W) (θ : Nat → GTm) (l : Lit W) (c : List (Lit W)) : bv v θ (l :: c) = lv v θ l * bv v θ c := by
  simp [bv]

theorem bv_nil (v : GTm → W) (θ : Nat → GTm) : bv v θ ([] : List (Lit W)) = 1 := rfl

theorem bv_perm {v : GTm → W} {θ : Nat → GTm} {b c : List (Lit W)} (h : b.Perm c) : bv v θ b = bv v θ c :=
  (h.map _).prod_eq

theorem mem_bodyVars {n : Nat} {b : List (Lit W)} : n ∈ bodyVars b ↔ ∃ l ∈ b, n ∈ litVars l := by
  induction b with
  | nil => simp [bodyVars]
  | cons l b ih => simp [bodyVars, ih]

theorem bodyVars_append (b c : List (Lit W)) : bodyVars (b ++ c) = bodyVars b ∪ bodyVars c := by
  ext n; simp only [mem_bodyVars, List.mem_append, Finset.mem_union]
  constructor
  · rintro ⟨l, h | h, hn⟩
    · exact .inl ⟨l, h, hn⟩
    · exact .inr ⟨l, h, hn⟩
  · rintro (⟨l, h, hn⟩ | ⟨l, h, hn⟩)
    · exact ⟨l, .inl h, hn⟩
    · exact ⟨l, .inr h, hn⟩

/-- assignments to disjoint sets of variables -/
noncomputable def asgUnion {U V : Finset Nat} (h : Disjoint U V) : Asg (U ∪ V) ≃ Asg U × Asg V where
  toFun a := (fun n => a ⟨n.1, by simp [n.2]⟩, fun n => a ⟨n.1, by simp [n.2]⟩)
  invFun p := fun n => if hn : n.1 ∈ U then p.1 ⟨n.1, hn⟩ else p.2 ⟨n.1, by
    rcases Finset.mem_union.1 n.2 with h | h
    · exact (hn h).elim
    · exact h⟩
  left_inv a := by
    funext n
    by_cases hn : n.1 ∈ U <;> simp [hn]
  right_inv p := by
    apply Prod.ext
    · funext n; simp [n.2]
    · funext n
      have : n.1 ∉ U := fun hu => (Finset.disjoint_left.1 h hu) n.2
      simp [this]

theorem isum_union {U V : Finset Nat} (h : Disjoint U V) (F : Asg U → Asg V → W) :
    isum (fun a : Asg (U ∪ V) => F (cut U (ext a)) (cut V (ext a))) = isum fun a => isum fun b => F a b := by
  rw [← isum_prod (fun p : Asg U × Asg V => F p.1 p.2), ← isum_equiv (asgUnion h)]
  refine isum_congr fun a => ?_
  have h1 : cut U (ext a) = ((asgUnion h) a).1 := by funext n; simp [cut, ext, asgUnion, n.2]
  have h2 : cut V (ext a) = ((asgUnion h) a).2 := by funext n; simp [cut, ext, asgUnion, n.2]
  rw [h1, h2]

instance : Infinite GTm := Infinite.of_injective (fun n : Nat => (⟨.con (.int n), by simp [Ground]⟩ : GTm)) fun a b h => by
  have := congrArg Subtype.val h
  simpa using this

/-- any nonempty finite set of variables has as many assignments as there are ground terms -/
theorem asg_equiv {V : Finset Nat} (h : V.Nonempty) : Nonempty (Asg V ≃ GTm) := by
  rw [← Cardinal.eq]
  have h1 : Cardinal.mk (Asg V) = Cardinal.mk GTm ^ (V.card) := by
    rw [Cardinal.mk_arrow]
    simp
  rw [h1]
  exact Cardinal.power_nat_eq (Cardinal.infinite_iff.1 inferInstance) (Nat.one_le_iff_ne_zero.2 (Finset.card_ne_zero.2 h))

/-- variables that do not matter multiply the sum -/
theorem isum_extra {U V : Finset Nat} (h : U ⊆ V) (F : Asg U → W) :
    isum (fun a : Asg V => F (cut U (ext a))) = (if U = V then 1 else infty) * isum F := by
  have hd : Disjoint U (V \ U) := Finset.disjoint_sdiff
  have hu : U ∪ (V \ U) = V := Finset.union_sdiff_of_subset h
  have key : isum (fun a : Asg (U ∪ (V \ U)) => F (cut U (ext a))) = isum (fun _ : Asg (V \ U) => (1 : W)) * isum F := by
    rw [isum_union hd (fun a _ => F a), isum_comm, isum_mul]
    exact isum_congr fun b => by rw [one_mul]
  rw [hu] at key
  rw [key]
  split
  · rename_i e
    have : IsEmpty {n // n ∈ V \ U} := ⟨fun n => by have := n.2; simp [e] at this⟩
    rw [isum_unique (ι := Asg (V \ U))]
  · rename_i e
    have : (V \ U).Nonempty := by
      rw [Finset.sdiff_nonempty]; intro h2; exact e (Finset.Subset.antisymm h h2)
    obtain ⟨e⟩ := asg_equiv this
    rw [infty, ← isum_equiv e (fun _ => (1 : W))]

/-- renaming variables -/
theorem isum_rename {V : Finset Nat} {ρ : Nat → Nat} (hρ : Set.InjOn ρ V) (F : Asg V → W) :
    isum (fun a : Asg (V.image ρ) => F (cut V fun n => ext a (ρ n))) = isum F := by
  let e : {n // n ∈ V} ≃ {n // n ∈ V.image ρ} := Equiv.ofBijective (fun n => ⟨ρ n.1, Finset.mem_image_of_mem _ n.2⟩)
    ⟨fun a b h => Subtype.ext (hρ a.2 b.2 (by simpa using h)), fun b => by
      obtain ⟨a, ha, hb⟩ := Finset.mem_image.1 b.2
      exact ⟨⟨a, ha⟩, Subtype.ext hb⟩⟩
  rw [← isum_equiv (e.arrowCongr (Equiv.refl GTm)).symm F]
  refine isum_congr fun a => congrArg F ?_
  funext n
  have : (ρ n.1) ∈ V.image ρ := Finset.mem_image_of_mem _ n.2
  simp only [cut, ext, this, dif_pos, e]
  rfl

open Classical in
/-- the contribution computed with any larger set of variables that has no extra ones in `V` -/
theorem contrib_eq {r : WRule W} {V : Finset Nat} (hV : rvars r = V) (v : GTm → W) (x : GTm) :
    contrib r v x = isum fun a : Asg V => if gsub (ext a) r.head = x then bv v (ext a) r.body else 0 := by
  subst hV; rfl

theorem litVars_sub_rvars {r : WRule W} {l : Lit W} (hl : l ∈ r.body) : litVars l ⊆ rvars r := by
  intro n hn
  simp only [rvars, Finset.mem_union]
  exact .inr (mem_bodyVars.2 ⟨l, hl, hn⟩)

/-- the contribution of a rule depends on the values of the instances of its subgoals only -/
theorem contrib_congr {r : WRule W} {v w : GTm → W} (h : ∀ t, Lit.sub t ∈ r.body → ∀ θ, v (gsub θ t) = w (gsub θ t)) (x : GTm) :
    contrib r v x = contrib r w x := by
  unfold contrib
  refine isum_congr fun a => ?_
  have : bv v (ext a) r.body = bv w (ext a) r.body := by
    unfold bv
    congr 1
    apply List.map_congr_left
    intro l hl
    cases l with
    | val k => rfl
    | sub t => exact h t hl _
  rw [this]

theorem contrib_zero {r : WRule W} {v : GTm → W} {x : GTm} (h : ∀ θ, gsub θ r.head ≠ x) : contrib r v x = 0 := by
  unfold contrib
  exact (isum_congr fun a => if_neg (h _)).trans isum_zero

theorem T_append (p q : List (WRule W)) (v : GTm → W) (x : GTm) : T (p ++ q) v x = T p v x + T q v x := by
  simp [T]

theorem T_cons (r : WRule W) (q : List (WRule W)) (v : GTm → W) (x : GTm) : T (r :: q) v x = contrib r v x + T q v x := by
  simp [T]

theorem T_nil (v : GTm → W) (x : GTm) : T ([] : List (WRule W)) v x = 0 := rfl

theorem T_perm {p q : List (WRule W)} (h : p.Perm q) (v : GTm → W) (x : GTm) : T p v x = T q v x :=
  (h.map _).sum_eq

/-- a renaming of a rule -/
def renLit (ρ : Nat → Nat) : Lit W → Lit W
  | .val k => .val k
  | .sub t => .sub (t.sub fun n => .var (ρ n))

def renRule (ρ : Nat → Nat) (r : WRule W) : WRule W := ⟨r.head.sub fun n => .var (ρ n), r.body.map (renLit ρ)⟩

theorem vars_renTm (ρ : Nat → Nat) (t : Tm) : vars (t.sub fun n => .var (ρ n)) = (vars t).image ρ := by
  ext n
  rw [mem_vars_sub]
  simp only [vars_var, Finset.mem_singleton, Finset.mem_image]
  exact ⟨fun ⟨y, h, e⟩ => ⟨y, h, e.symm⟩, fun ⟨y, h, e⟩ => ⟨y, h, e.symm⟩⟩

theorem rvars_renRule (ρ : Nat → Nat) (r : WRule W) : rvars (renRule ρ r) = (rvars r).image ρ := by
  simp only [rvars, renRule, Finset.image_union, vars_renTm]
  congr 1
  induction r.body with
  | nil => simp [bodyVars]
  | cons l b ih =>
    simp only [List.map_cons, bodyVars, Finset.image_union, ih]
    congr 1
    cases l with
    | val k => simp [renLit, litVars]
    | sub t => simp only [renLit, litVars, vars_renTm]

theorem gsub_ren (ρ : Nat → Nat) (θ : Nat → GTm) (t : Tm) : gsub θ (t.sub fun n => .var (ρ n)) = gsub (fun n => θ (ρ n)) t := by
  apply Subtype.ext
  simp only [gsub, Tm.sub_sub, sub_var]

theorem bv_ren (v : GTm → W) (ρ : Nat → Nat) (θ : Nat → GTm) (b : List (Lit W)) :
    bv v θ (b.map (renLit ρ)) = bv v (fun n => θ (ρ n)) b := by
  unfold bv
  rw [List.map_map]
  congr 1
  apply List.map_congr_left
  intro l _
  cases l with
  | val k => rfl
  | sub t => simp only [Function.comp, renLit, lv, gsub_ren]

/-- a rule and its one-to-one renamings contribute the same -/
theorem contrib_ren {ρ : Nat → Nat} {r : WRule W} (hρ : Set.InjOn ρ (rvars r)) (v : GTm → W) (x : GTm) :
    contrib (renRule ρ r) v x = contrib r v x := by
  classical
  rw [contrib_eq (rvars_renRule ρ r)]
  unfold contrib
  rw [← isum_rename hρ]
  refine isum_congr fun a => ?_
  simp only [renRule, gsub_ren, bv_ren]
  have h : ∀ n ∈ rvars r, ext (cut (rvars r) fun n => ext a (ρ n)) n = ext a (ρ n) := fun n hn => ext_cut hn
  rw [gsub_congr (t := r.head) fun n hn => h n (by simp [rvars, hn]), bv_congr (b := r.body) fun n hn => h n (by simp [rvars, hn])]

/-- reordering the body does not matter -/
theorem contrib_perm {r : WRule W} {b : List (Lit W)} (h : r.body.Perm b) (v : GTm → W) (x : GTm) :
    contrib ⟨r.head, b⟩ v x = contrib r v x := by
  classical
  have hV : rvars ⟨r.head, b⟩ = rvars r := by
    simp only [rvars]
    congr 1
    ext n
    simp only [mem_bodyVars, h.mem_iff]
  rw [contrib_eq hV]
  unfold contrib
  refine isum_congr fun a => ?_
  simp only [bv_perm h]

end

section
variable {W : Type} [OSemi W]

theorem lv_mono {v w : GTm → W} (h : ∀ x, v x ≤ w x) (θ : Nat → GTm) (l : Lit W) : lv v θ l ≤ lv w θ l := by
  cases l with
  | val k => exact le_refl _
  | sub t => exact h _

theorem bv_mono {v w : GTm → W} (h : ∀ x, v x ≤ w x) (θ : Nat → GTm) : ∀ b : List (Lit W), bv v θ b ≤ bv w θ b
  | [] => le_refl _
  | l :: b => by rw [bv_cons, bv_cons]; exact OSemi.mul_le (lv_mono h θ l) (bv_mono h θ b)

theorem contrib_mono {v w : GTm → W} (h : ∀ x, v x ≤ w x) (r : WRule W) (x : GTm) : contrib r v x ≤ contrib r w x := by
  unfold contrib
  refine OSemi.isum_le fun a => ?_
  split
  · exact bv_mono h _ _
  · exact le_refl _

theorem T_mono {v w : GTm → W} (h : ∀ x, v x ≤ w x) (p : List (WRule W)) (x : GTm) : T p v x ≤ T p w x := by
  induction p with
  | nil => exact le_refl _
  | cons r p ih => rw [T_cons, T_cons]; exact OSemi.add_le (contrib_mono h r x) ih

theorem rounds_succ (p : List (WRule W)) (d : GTm → W) : ∀ n x, rounds p d n x ≤ rounds p d (n + 1) x
  | 0, x => OSemi.zero_le' _
  | n + 1, x => OSemi.add_le (le_refl _) (T_mono (rounds_succ p d n) p x)

theorem rounds_mono (p : List (WRule W)) (d : GTm → W) {m n : Nat} (h : m ≤ n) (x : GTm) : rounds p d m x ≤ rounds p d n x := by
  induction h with
  | refl => exact le_refl _
  | step _ ih => exact le_trans ih (rounds_succ p d _ x)

end

/-! ### Instances: the hypotheses of the theorems are met -/

noncomputable instance : OSemi ENNReal where
  isum f := ∑' i, f i
  isum_equiv e f := e.tsum_eq f
  isum_empty f := by simp
  isum_unit f := by simp
  isum_sum f := by
    rw [Summable.tsum_sum ENNReal.summable ENNReal.summable]
  isum_sigma f := ENNReal.tsum_sigma' f
  mul_isum a f := by rw [ENNReal.tsum_mul_left]
  zero_le' a := bot_le
  add_le h1 h2 := add_le_add h1 h2
  mul_le h1 h2 := mul_le_mul' h1 h2
  isum_le h := ENNReal.tsum_le_tsum h

/-- truth values: `t` is derivable -/
inductive TV | f | t
deriving DecidableEq

namespace TV
def or : TV → TV → TV
  | f, b => b
  | t, _ => t
def and : TV → TV → TV
  | f, _ => f
  | t, b => b
instance : Zero TV := ⟨f⟩
instance : One TV := ⟨t⟩
instance : Add TV := ⟨or⟩
instance : Mul TV := ⟨and⟩

instance : CommSemiring TV where
  nsmul := nsmulRec
  npow := npowRec
  add_assoc a b c := by cases a <;> rfl
  zero_add a := rfl
  add_zero a := by cases a <;> rfl
  add_comm a b := by cases a <;> cases b <;> rfl
  mul_assoc a b c := by cases a <;> rfl
  one_mul a := rfl
  mul_one a := by cases a <;> rfl
  mul_comm a b := by cases a <;> cases b <;> rfl
  zero_mul a := rfl
  mul_zero a := by cases a <;> rfl
  left_distrib a b c := by cases a <;> rfl
  right_distrib a b c := by cases a <;> cases b <;> cases c <;> rfl

instance : PartialOrder TV where
  le a b := a = t → b = t
  le_refl a h := h
  le_trans a b c h1 h2 h := h2 (h1 h)
  le_antisymm a b h1 h2 := by
    cases a <;> cases b <;> first | rfl | exact (h1 rfl).symm | exact h2 rfl

open Classical in
/-- whether some member of the family is true -/
noncomputable def any {ι : Type} (g : ι → TV) : TV := if ∃ i, g i = t then t else f

theorem any_iff {ι : Type} (g : ι → TV) : any g = t ↔ ∃ i, g i = t := by
  unfold any; split <;> simp_all

theorem ext_iff' {a b : TV} (h : a = t ↔ b = t) : a = b := by cases a <;> cases b <;> simp_all
theorem add_iff (a b : TV) : a + b = t ↔ a = t ∨ b = t := by
  cases a <;> cases b <;> first | (constructor <;> intro h <;> revert h <;> decide)
theorem mul_iff (a b : TV) : a * b = t ↔ a = t ∧ b = t := by
  cases a <;> cases b <;> first | (constructor <;> intro h <;> revert h <;> decide)

noncomputable instance : OSemi TV where
  isum := any
  isum_equiv e g := ext_iff' (by
    simp only [any_iff]
    exact ⟨fun ⟨i, h⟩ => ⟨e i, h⟩, fun ⟨k, h⟩ => ⟨e.symm k, by simpa using h⟩⟩)
  isum_empty g := ext_iff' ⟨fun h => ((any_iff g).1 h).elim fun i => i.elim, fun h => by cases h⟩
  isum_unit g := ext_iff' ((any_iff g).trans ⟨fun ⟨_, h⟩ => h, fun h => ⟨(), h⟩⟩)
  isum_sum g := ext_iff' (by simp [any_iff, add_iff])
  isum_sigma g := ext_iff' (by simp [any_iff])
  mul_isum a g := ext_iff' (by simp [any_iff, mul_iff])
  zero_le' a := fun h => by cases h
  add_le h1 h2 := fun h => by rw [add_iff] at h ⊢; exact h.imp h1 h2
  mul_le h1 h2 := fun h => by rw [mul_iff] at h ⊢; exact ⟨h1 h.1, h2 h.2⟩
  isum_le h := fun e => by rw [any_iff] at e ⊢; exact e.imp fun i => h i

end TV

end Sem
end Verif
