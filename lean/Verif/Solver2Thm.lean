/-
Property C39: the chart of the nonground solver (`solver2.py`), read as the set of the ground instances of its
items, solves the equations of the program and is the least solution - provided no item that is popped matches two
subgoals of one ground instance of a rule.  Without that condition contributions are counted twice.
-/
import Verif.Solver2
import Verif.UnfoldThm
import Verif.Linearize
import Verif.CFoldThm
import Verif.UnfoldMono
import Verif.TermToolsThm

set_option linter.unusedSectionVars false
set_option linter.unusedSimpArgs false

namespace Verif
open Tm Heap Sem
open Solver (noHeap forEach instFault keyError plus prioOf good_noHeap respects_noHeap ground_val mem_keys_set mem_keys_del)
open Unfold (Ops freshR derefR unmodelled unsupported bval UserHead subRule subLit derefR_evt freshR_spec gsub_sub sub_ext_eq mem_rvars_sub)

namespace Solver2
variable {W : Type}

/-! ### Spec: what a chart with variables means -/

/-- `z` is a ground instance of `x` -/
def Inst (x : Tm) (z : GTm) : Prop := ∃ θ, gsub θ x = z

open Classical in
/-- what the entries of a chart give to the ground item `z`: every entry counts for all its instances -/
noncomputable def den [AddCommMonoid W] (d : Dict Tm W) (z : GTm) : W := (d.map fun p => if Inst p.1 z then p.2 else 0).sum

/-- the value of a ground item: builtins have a fixed value, other items are looked up -/
noncomputable def value [CommSemiring W] (ops : Ops) (d : Dict Tm W) (z : GTm) : W := (bval ops z.1).getD (den d z)

/-- no ground instance of a rule has two subgoals that are instances of `a` -/
def NoDouble (rules : List (WRule W)) (a : Tm) : Prop :=
  ∀ r ∈ rules, ∀ (i j : Nat) (p q : Tm), i ≠ j → r.body[i]? = some (.sub p) → r.body[j]? = some (.sub q) →
    ∀ θ, ¬ (Inst a (gsub θ p) ∧ Inst a (gsub θ q))

/-! ### Assignments that respect a store -/

/-- the assignment agrees with the bindings -/
def Resp (h : Heap) (θ : Nat → GTm) : Prop := Respects h fun n => (θ n).1

/-- a store that binds variables of `V` only, to terms over `V` -/
structure Ok (h : Heap) (V : Finset Nat) : Prop where
  good : Good h
  keys : ∀ n t, h n = some t → n ∈ V
  closed : ∀ n ∈ V, vars (res h n) ⊆ V

theorem Ok.sub {h : Heap} {V : Finset Nat} (o : Ok h V) {t : Tm} (ht : vars t ⊆ V) : vars (t.sub (res h)) ⊆ V := by
  intro n hn
  obtain ⟨m, hm, hn⟩ := (mem_vars_sub).1 hn
  exact o.closed m (ht hm) hn

theorem Ok.bound {h : Heap} {V : Finset Nat} (o : Ok h V) {n : Nat} {t : Tm} (e : h n = some t) : vars t ⊆ V := by
  intro m hm
  by_contra hV
  have hm0 : h m = none := by
    cases hh : h m with
    | none => rfl
    | some u => exact (hV (o.keys m u hh)).elim
  apply hV
  apply o.closed n (o.keys n t e)
  rw [o.good.res_bound e]
  exact mem_vars_sub.2 ⟨m, hm, by rw [res_unbound hm0]; simp⟩

theorem ok_noHeap (V : Finset Nat) : Ok noHeap V :=
  ⟨good_noHeap, by intro n t h; simp [noHeap] at h, fun n hn => by rw [res_unbound rfl]; simpa using hn⟩

theorem Ok.resp_congr {h : Heap} {V : Finset Nat} (o : Ok h V) {θ φ : Nat → GTm} (e : ∀ n ∈ V, θ n = φ n) (hr : Resp h θ) : Resp h φ := by
  intro n t hn
  have h1 := hr n t hn
  simp only at h1 ⊢
  rw [← e n (o.keys n t hn), h1]
  exact sub_congr fun m hm => by rw [e m (o.bound hn hm)]

theorem Ok.mono {h : Heap} {V U : Finset Nat} (o : Ok h V) (hU : ∀ n ∈ U, n ∉ V) : Ok h (V ∪ U) := by
  refine ⟨o.good, fun n t e => Finset.mem_union_left _ (o.keys n t e), fun n hn => ?_⟩
  rcases Finset.mem_union.1 hn with h1 | h1
  · exact (o.closed n h1).trans Finset.subset_union_left
  · have : h n = none := by
      cases hh : h n with
      | none => rfl
      | some u => exact (hU n h1 (o.keys n u hh)).elim
    rw [res_unbound this]
    simp [h1]

theorem Ok.snap {h : Heap} {V : Finset Nat} (o : Ok h V) : ∀ {f : Nat} {x y : Tm}, snapF h f x = some y → vars x ⊆ V → vars y ⊆ V := by
  intro f
  induction f with
  | zero => intro x y e; simp [snapF] at e
  | succ f ih =>
    intro x y e hx
    cases x with
    | var n =>
      cases hn : h n with
      | none => simp [snapF, hn] at e; subst e; exact hx
      | some u => simp only [snapF, hn] at e; exact ih e (o.bound hn)
    | con c => simp [snapF] at e; subst e; exact hx
    | app as => simp [snapF] at e; subst e; exact hx

theorem gsub_of_res {h : Heap} (hg : Good h) {θ : Nat → GTm} (hr : Resp h θ) {x y : Tm} (e : x.sub (res h) = y.sub (res h)) :
    gsub θ x = gsub θ y := by
  apply Subtype.ext
  have h1 := hg.sub_res hr x
  have h2 := hg.sub_res hr y
  simp only [gsub]
  rw [← h1, ← h2, e]

section
variable [CSemi W]

open Classical in
/-- the sum of `F` over the assignments to `V` that respect the store -/
noncomputable def M (h : Heap) (V : Finset Nat) (F : (Nat → GTm) → W) : W :=
  isum fun a : Asg V => if Resp h (ext a) then F (ext a) else 0

theorem M_congr {h : Heap} {V : Finset Nat} {F G : (Nat → GTm) → W} (e : ∀ θ, Resp h θ → F θ = G θ) : M h V F = M h V G := by
  unfold M
  refine isum_congr fun a => ?_
  split
  · rename_i hr; exact e _ hr
  · rfl

theorem M_zero {h : Heap} {V : Finset Nat} {F : (Nat → GTm) → W} (e : ∀ θ, Resp h θ → F θ = 0) : M h V F = 0 := by
  rw [M_congr (G := fun _ => 0) e]
  unfold M
  exact (isum_congr fun a => by simp).trans isum_zero

theorem M_list {α : Type} {h : Heap} {V : Finset Nat} (l : List α) (F : α → (Nat → GTm) → W) :
    (l.map fun a => M h V (F a)).sum = M h V fun θ => (l.map fun a => F a θ).sum := by
  unfold M
  rw [isum_list]
  refine isum_congr fun a => ?_
  split
  · rfl
  · simp

theorem M_noHeap {V : Finset Nat} (F : (Nat → GTm) → W) : M noHeap V F = isum fun a : Asg V => F (ext a) := by
  unfold M
  exact isum_congr fun a => if_pos (respects_noHeap _)

open Classical in
/-- an instance is reached by one assignment only -/
theorem inst_sum (x : Tm) (z : GTm) (K : W) :
    isum (fun b : Asg (vars x) => if gsub (ext b) x = z then K else 0) = if Inst x z then K else 0 := by
  split
  · rename_i hi
    obtain ⟨θ, hθ⟩ := hi
    have hu : ∀ b : Asg (vars x), gsub (ext b) x = z ↔ b = cut (vars x) θ := by
      intro b
      constructor
      · intro hb
        rw [← hθ] at hb
        have h1 := sub_eq_on_vars (congrArg Subtype.val hb)
        funext n
        have h2 := Subtype.ext (h1 n.1 n.2)
        simpa [ext, cut, n.2] using h2
      · rintro rfl
        rw [← hθ]
        exact gsub_congr fun n hn => ext_cut hn
    rw [isum_congr (g := fun b => if b = cut (vars x) θ then K else 0) fun b => by simp only [hu]]
    exact isum_single (cut (vars x) θ) fun _ => K
  · rename_i hi
    refine (isum_congr fun b => if_neg ?_).trans isum_zero
    exact fun hb => hi ⟨_, hb⟩

open Classical in
/-- unifying with a fresh copy of an item keeps the assignments that make the query an instance of it -/
theorem M_inst {h : Heap} {V : Finset Nat} (o : Ok h V) {x q : Tm} (hd : ∀ n ∈ vars x, n ∉ V) (hq : vars q ⊆ V)
    {F : (Nat → GTm) → W} (hF : ∀ θ φ, (∀ n ∈ V, θ n = φ n) → F θ = F φ) :
    M h (V ∪ vars x) (fun θ => if gsub θ x = gsub θ q then F θ else 0) = M h V fun θ => if Inst x (gsub θ q) then F θ else 0 := by
  have hdis : Disjoint V (vars x) := Finset.disjoint_right.2 hd
  unfold M
  have := isum_union (W := W) hdis fun a b => if Resp h (ext a) then (if gsub (ext b) x = gsub (ext a) q then F (ext a) else 0) else 0
  refine Eq.trans (isum_congr fun a => ?_) (this.trans (isum_congr fun a => ?_))
  · have e1 : ∀ n ∈ V, ext (cut V (ext a)) n = ext a n := fun n hn => ext_cut hn
    have e2 : gsub (ext (cut (vars x) (ext a))) x = gsub (ext a) x := gsub_congr fun n hn => ext_cut hn
    have e3 : gsub (ext (cut V (ext a))) q = gsub (ext a) q := gsub_congr fun n hn => e1 n (hq hn)
    have e4 : Resp h (ext (cut V (ext a))) ↔ Resp h (ext a) := ⟨o.resp_congr e1, o.resp_congr fun n hn => (e1 n hn).symm⟩
    rw [e2, e3, hF _ _ e1]
    simp only [e4]
  · by_cases hr : Resp h (ext a)
    · simp only [if_pos hr]
      exact inst_sum x _ _
    · simp only [if_neg hr]
      exact isum_zero

open Classical in
/-- the assignments that respect a store correspond to the assignments to its unbound variables -/
theorem M_unbound {h : Heap} {V : Finset Nat} (o : Ok h V) {F : (Nat → GTm) → W} (hF : ∀ θ φ, (∀ n ∈ V, θ n = φ n) → F θ = F φ) :
    M h V F = isum fun a : Asg (Unfold.unbound h V) => F fun n => gsub (ext a) (res h n) := by
  have hclosed : ∀ n ∈ V, ∀ m ∈ vars (res h n), m ∈ Unfold.unbound h V := by
    intro n hnV m hm
    simp only [Unfold.unbound, Finset.mem_filter]
    exact ⟨o.closed n hnV hm, o.good.vars_res (t := .var n) (by simpa using hm)⟩
  have hresp : ∀ b : Asg (Unfold.unbound h V), Resp h fun n => gsub (ext b) (res h n) := by
    intro b n t e
    simp only
    rw [o.good.res_bound e]
    simp only [gsub, Tm.sub_sub]
  unfold M
  rw [isum_subtype]
  let e : {a : Asg V // Resp h (ext a)} ≃ Asg (Unfold.unbound h V) :=
    { toFun := fun a => cut _ (ext a.1)
      invFun := fun b => ⟨cut V fun n => gsub (ext b) (res h n), o.resp_congr (fun n hn => (ext_cut hn).symm) (hresp b)⟩
      left_inv := fun a => by
        apply Subtype.ext
        funext n
        simp only [cut]
        have h1 : gsub (ext (cut (Unfold.unbound h V) (ext a.1))) (res h n.1) = gsub (ext a.1) (res h n.1) :=
          gsub_congr fun m hm => ext_cut (hclosed n.1 n.2 m hm)
        have h2 : gsub (ext a.1) (res h n.1) = ext a.1 n.1 := by
          apply Subtype.ext
          have := o.good.sub_res a.2 (.var n.1)
          simpa [gsub] using this
        have h3 : ext a.1 n.1 = a.1 n := by simp [ext, n.2]
        exact h1.trans (h2.trans h3)
      right_inv := fun b => by
        funext n
        have hn' : n.1 ∈ V ∧ h n.1 = none := by have := n.2; simpa [Unfold.unbound] using this
        simp only [cut]
        rw [show ext (cut V fun n => gsub (ext b) (res h n)) n.1 = gsub (ext b) (res h n.1) from ext_cut hn'.1]
        apply Subtype.ext
        simp [gsub, res_unbound hn'.2, ext, n.2] }
  rw [← isum_equiv e]
  refine isum_congr fun a => hF _ _ fun n hn => ?_
  have := congrArg (fun z : {a : Asg V // Resp h (ext a)} => ext z.1 n) (e.left_inv a)
  exact this.symm.trans (ext_cut (θ := fun n => gsub (ext (e a)) (res h n)) hn)

end

/-! ### What a computation adds to the change buffer -/

/-- the buffers are consistent: same keys, canonical items with ordinary functors -/
structure SOk (g : Cfg W) (s : Chg W) : Prop where
  wf : Dict.WF s.change
  keys : ∀ x, x ∈ Dict.keys s.change ↔ x ∈ Dict.keys s.agenda
  user : ∀ x ∈ Dict.keys s.change, UserHead g.ops x
  canon : ∀ x ∈ Dict.keys s.change, canonP g.cv x = x

/-- a normal run of `b` from `h` restores the store and adds `X` to the changes -/
def Adds [CSemi W] (g : Cfg W) (V : Finset Nat) (h : Heap) (b : Body (Chg W)) (X : GTm → W) : Prop :=
  ∀ s h' s', (∀ n ∈ V, n < s.k) → SOk g s → b h s = some (h', s', .done) →
    h' = h ∧ s.k ≤ s'.k ∧ SOk g s' ∧ ∀ z, den s'.change z = den s.change z + X z

section
variable [CSemi W] {g : Cfg W}

theorem Adds.mono {V V' : Finset Nat} {h : Heap} {b : Body (Chg W)} {X : GTm → W} (a : Adds g V h b X) (hV : V ⊆ V') : Adds g V' h b X :=
  fun s h' s' hk => a s h' s' fun n hn => hk n (hV hn)

theorem Adds.congr {V : Finset Nat} {h : Heap} {b : Body (Chg W)} {X Y : GTm → W} (a : Adds g V h b X) (e : ∀ z, X z = Y z) : Adds g V h b Y := by
  rw [← funext e]; exact a

theorem forEach_adds {α : Type} {V : Finset Nat} {h : Heap} {b : α → Body (Chg W)} {X : α → GTm → W} :
    ∀ {l : List α}, (∀ a ∈ l, Adds g V h (b a) (X a)) → Adds g V h (forEach l b) fun z => (l.map fun a => X a z).sum
  | [], _ => by
    intro s h' s' _ hs e
    simp only [forEach, Option.some.injEq, Prod.mk.injEq] at e
    obtain ⟨rfl, rfl, _⟩ := e
    exact ⟨rfl, le_refl _, hs, fun z => by simp⟩
  | a :: l, ha => by
    intro s h' s' hk hs e
    simp only [forEach] at e
    split at e
    · cases e
    · rename_i h1 s1 e1
      obtain ⟨rfl, k1, o1, d1⟩ := ha a (by simp) s h1 s1 hk hs e1
      obtain ⟨rfl, k2, o2, d2⟩ := forEach_adds (l := l) (fun a h => ha a (by simp [h])) s1 h' s' (fun n hn => (hk n hn).trans_le k1) o1 e
      exact ⟨rfl, k1.trans k2, o2, fun z => by rw [d2, d1]; simp [add_assoc]⟩
    · rename_i r hne _
      simp only [Option.some.injEq] at e
      subst e
      exact (hne _ _ rfl).elim

theorem bindAll_none : ∀ {bs : List (Nat × Tm)} {h : Heap} {n : Nat}, bindAll h bs n = none → h n = none
  | [], _, _, e => e
  | (x, t) :: bs, h, n, e => by
    have := bindAll_none (bs := bs) e
    by_cases hx : n = x
    · subst hx; simp at this
    · rwa [upd_ne _ _ hx] at this

theorem bindAll_some : ∀ {bs : List (Nat × Tm)} {h : Heap} {n : Nat} {t : Tm}, bindAll h bs n = some t → h n = some t ∨ n ∈ bs.map (·.1)
  | [], _, _, _, e => .inl e
  | (x, u) :: bs, h, n, t, e => by
    rcases bindAll_some (bs := bs) e with h1 | h1
    · by_cases hx : n = x
      · subst hx; exact .inr (by simp)
      · rw [upd_ne _ _ hx] at h1; exact .inl h1
    · exact .inr (by simp only [List.map_cons, List.mem_cons]; exact .inr h1)

theorem ok_bindAll {h : Heap} {V : Finset Nat} (o : Ok h V) {x y : Tm} (hx : vars x ⊆ V) (hy : vars y ⊆ V) {bs : List (Nat × Tm)}
    (hs : Spec h x y (some bs)) : Ok (bindAll h bs) V := by
  cases hs with
  | ok _ hg hr hn hd hv =>
  refine ⟨hg, fun n t e => ?_, fun n hn z hz => ?_⟩
  · rcases bindAll_some e with h1 | h1
    · exact o.keys n t h1
    · obtain ⟨p, hp, rfl⟩ := List.mem_map.1 h1
      rcases Finset.mem_union.1 (hd p hp) with h2 | h2
      · exact o.sub hx h2
      · exact o.sub hy h2
  · rcases (hv (.var n) z (by simpa using hz)).1 with h1 | h1 | h1
    · exact o.closed n hn (by simpa using h1)
    · exact o.sub hx h1
    · exact o.sub hy h1

open Classical in
theorem unify_adds {f : Nat} {V : Finset Nat} {h : Heap} (o : Ok h V) {x y : Tm} (hx : vars x ⊆ V) (hy : vars y ⊆ V) {b : Body (Chg W)}
    {F : (Nat → GTm) → GTm → W}
    (hk : ∀ h', Ok h' V → (∀ n, h' n = none → h n = none) → (∀ τ, Respects h' τ ↔ Respects h τ ∧ x.sub τ = y.sub τ) →
      Adds g V h' b fun z => M h' V fun θ => F θ z) :
    Adds g V h (unifyF f x y b) fun z => M h V fun θ => if gsub θ x = gsub θ y then F θ z else 0 := by
  intro s h' s' hV hs e
  obtain ⟨r, hsp, hrun⟩ := unify_run o.good x y
  have e2 := hrun _ _ _ _ e
  cases r with
  | none =>
    simp only [run, Option.some.injEq, Prod.mk.injEq] at e2
    obtain ⟨rfl, rfl, _⟩ := e2
    refine ⟨rfl, le_refl _, hs, fun z => ?_⟩
    cases hsp with
    | fail hf =>
    beta_reduce
    rw [M_zero, add_zero]
    intro θ hθ
    exact if_neg fun he => hf _ hθ (sub_ext_eq.1 he)
  | some bs =>
    have o' := ok_bindAll o hx hy hsp
    cases hsp with
    | ok _ hg hr hn hd hv =>
    have hu : unbindAll bs (bindAll h bs) = h := unbindAll_bindAll hn fun p hp => by
      rcases Finset.mem_union.1 (hd p hp) with h2 | h2
      · exact o.good.vars_res h2
      · exact o.good.vars_res h2
    simp only [run] at e2
    split at e2
    · cases e2
    · rename_i h1 s1 sig e3
      simp only [Option.some.injEq, Prod.mk.injEq] at e2
      obtain ⟨rfl, rfl, rfl⟩ := e2
      obtain ⟨rfl, k1, o1, d1⟩ := hk _ o' (fun n => bindAll_none) hr s h1 s1 hV hs e3
      refine ⟨hu, k1, o1, fun z => ?_⟩
      rw [d1]
      congr 1
      unfold M
      refine isum_congr fun a => ?_
      have : Resp (bindAll h bs) (ext a) ↔ Resp h (ext a) ∧ gsub (ext a) x = gsub (ext a) y := by
        rw [sub_ext_eq]; exact hr _
      by_cases h1 : Resp h (ext a) <;> by_cases h2 : gsub (ext a) x = gsub (ext a) y <;> simp [this, h1, h2]

/-! ### The end of a join -/

/-- every unbound variable occurs in the rule -/
def Cov (r : WRule W) (h : Heap) (V : Finset Nat) : Prop := ∀ n ∈ V, h n = none → ∃ m ∈ rvars r, n ∈ vars (res h m)

theorem Cov.step {r : WRule W} {h h' : Heap} {V : Finset Nat} (c : Cov r h V) (hg : Good h) (hg' : Good h') (h1 : ∀ n, h' n = none → h n = none)
    (h2 : Respects h (res h')) : Cov r h' V := by
  intro n hn hn'
  obtain ⟨m, hm, hv⟩ := c n hn (h1 n hn')
  refine ⟨m, hm, ?_⟩
  have := hg.sub_res h2 (.var m)
  simp only [sub_var] at this
  rw [← this]
  exact mem_vars_sub.2 ⟨n, hv, by rw [res_unbound hn']; simp⟩

theorem bodyVs_eq (b : List (Lit W)) : bodyVs b = bodyVars b := by
  induction b with
  | nil => rfl
  | cons l b ih => cases l <;> simp [bodyVs, bodyVars, litVars, ih]

theorem inst_variant {x y : Tm} (h : Variant x y) (z : GTm) : Inst x z ↔ Inst y z := by
  have key : ∀ {x y : Tm}, Variant x y → Inst y z → Inst x z := by
    rintro x _ ⟨ρ, _, rfl⟩ ⟨θ, rfl⟩
    exact ⟨fun n => θ (ρ n), (gsub_ren ρ θ x).symm⟩
  exact ⟨key h.symm, key h⟩

theorem user_sub {ops : Ops} {x : Tm} (h : UserHead ops x) (σ : Nat → Tm) : UserHead ops (x.sub σ) := by
  obtain ⟨c, as, rfl, h1, h2⟩ := h
  exact ⟨c, as.map fun t => t.sub σ, by simp, h1, h2⟩

theorem user_variant {ops : Ops} {x y : Tm} (h : UserHead ops x) (hv : Variant x y) : UserHead ops y := by
  obtain ⟨ρ, _, rfl⟩ := hv
  exact user_sub h _

theorem canon_idem {cv : Nat → Nat} (hcv : Function.Injective cv) (x : Tm) : canonP cv (canonP cv x) = canonP cv x :=
  (canonP_eq_iff hcv).2 (canonP_variant hcv x).symm

open Classical in
theorem den_set {d : Dict Tm W} (t : Tm) (c : W) (z : GTm) :
    den (d.set t (plus (d.get t) c)) z = den d z + if Inst t z then c else 0 := by
  classical
  unfold den
  cases hg : d.get t with
  | none => exact CFold.sum_set_new (fun p : Tm × W => if Inst p.1 z then p.2 else 0) d t c hg
  | some b =>
    refine CFold.sum_set_old (fun p : Tm × W => if Inst p.1 z then p.2 else 0) d t b (b + c) hg ?_
    by_cases hi : Inst t z <;> simp [hi]

/-- what is assumed of a solver: no update is pruned, infinite multiplicities are right, `canonicalize` renames
one-to-one, `=` is not a comparison -/
structure Plain (g : Cfg W) : Prop where
  prio : ∀ n t, prioOf g.prio n t ≠ none
  inf : g.inf = infty
  cv : Function.Injective g.cv
  eq : g.ops (.str "=") = none

theorem sok_update {s : Chg W} (hs : SOk g s) {t : Tm} (hu : UserHead g.ops t) (hc : canonP g.cv t = t) (c : W) (p : Int) (n : Int) (k : Nat) :
    SOk g ⟨s.change.set t (plus (s.change.get t) c), s.agenda.set t p, n, k⟩ := by
  refine ⟨?_, fun x => ?_, fun x hx => ?_, fun x hx => ?_⟩
  · exact hs.wf.set _ _
  · simp only [mem_keys_set, hs.keys]
  · simp only [mem_keys_set] at hx
    rcases hx with rfl | hx
    · exact hu
    · exact hs.user x hx
  · simp only [mem_keys_set] at hx
    rcases hx with rfl | hx
    · exact hc
    · exact hs.canon x hx

open Classical in
theorem update_adds (pl : Plain g) {f : Nat} {V : Finset Nat} {h : Heap} (hg : Good h) {item : Tm} (hu : UserHead g.ops item) (c : W) :
    Adds g V h (update g f item c) fun z => if Inst (item.sub (res h)) z then c else 0 := by
  intro s h' s' _ hs e
  unfold update at e
  split at e
  · cases e
  · rename_i t k e1
    obtain ⟨f0, e0⟩ := hg.deref item
    obtain ⟨v1, k1, _⟩ := C08_fresh (deref_resolves e0) e1
    have v2 := v1.trans (canonP_variant pl.cv t)
    simp only at e
    split at e
    · rename_i e2
      exact (pl.prio _ _ e2).elim
    · rename_i p e2
      simp only [Option.some.injEq, Prod.mk.injEq] at e
      obtain ⟨rfl, rfl, _⟩ := e
      refine ⟨rfl, k1, sok_update hs (user_variant (user_sub hu _) v2) (canon_idem pl.cv _) _ _ _ _, fun z => ?_⟩
      rw [den_set]
      simp only [inst_variant v2]

open Classical in
theorem emit_adds (pl : Plain g) {f : Nat} {V : Finset Nat} {h : Heap} (o : Ok h V) {r : WRule W} (hr : rvars r ⊆ V) (hc : Cov r h V)
    (hu : UserHead g.ops r.head) (v : W) :
    Adds g V h (emit g f r v) fun z => M h V fun θ => v * if gsub θ r.head = z then 1 else 0 := by
  intro s h' s' hV hs e
  unfold emit multiple at e
  cases e1 : derefR h f r with
  | none => rw [e1] at e; cases e
  | some r' =>
    obtain ⟨N, hN⟩ := derefR_evt o.good r
    have hr' : r' = subRule (res h) r := by
      have h1 := Unfold.derefR_mono (le_max_left f N) e1
      rw [hN _ (le_max_right _ _)] at h1
      exact (Option.some.inj h1).symm
    subst hr'
    rw [e1] at e
    simp only [Option.map_some] at e
    obtain ⟨e2, e3, e4, e5⟩ := update_adds (f := f) (V := V) pl o.good hu _ s h' s' hV hs e
    refine ⟨e2, e3, e4, fun z => ?_⟩
    rw [e5]
    congr 1
    have hhead : vars (r.head.sub (res h)) ⊆ Unfold.unbound h V := by
      intro n hn
      simp only [Unfold.unbound, Finset.mem_filter]
      exact ⟨o.sub (fun m hm => hr (by simp [rvars, hm])) hn, o.good.vars_res hn⟩
    have hiff : bodyVs (subRule (res h) r).body \ vars (subRule (res h) r).head = ∅ ↔ vars (r.head.sub (res h)) = Unfold.unbound h V := by
      rw [Finset.sdiff_eq_empty_iff_subset, bodyVs_eq]
      constructor
      · intro hs
        apply Finset.Subset.antisymm hhead
        intro n hn
        simp only [Unfold.unbound, Finset.mem_filter] at hn
        obtain ⟨m, hm, hv⟩ := hc n hn.1 hn.2
        have : n ∈ rvars (subRule (res h) r) := mem_rvars_sub.2 ⟨m, hm, hv⟩
        simp only [rvars, Finset.mem_union] at this
        rcases this with h1 | h1
        · exact h1
        · exact hs h1
      · intro he n hn
        show n ∈ vars (r.head.sub (res h))
        rw [he]
        have : n ∈ rvars (subRule (res h) r) := by simp [rvars, hn]
        obtain ⟨m, hm, hv⟩ := mem_rvars_sub.1 this
        simp only [Unfold.unbound, Finset.mem_filter]
        exact ⟨o.closed m (hr hm) hv, o.good.vars_res (t := .var m) (by simpa using hv)⟩
    beta_reduce
    rw [M_unbound o]
    · have h1 := isum_extra (W := W) hhead fun b => v * if gsub (ext b) (r.head.sub (res h)) = z then 1 else 0
      have h2 : isum (fun b : Asg (vars (r.head.sub (res h))) => v * if gsub (ext b) (r.head.sub (res h)) = z then (1 : W) else 0) =
          v * if Inst (r.head.sub (res h)) z then 1 else 0 := by
        rw [← mul_isum, inst_sum]
      rw [h2] at h1
      refine Eq.trans ?_ (h1.symm.trans (isum_congr fun a => ?_))
      · rw [if_congr hiff rfl rfl, pl.inf]
        by_cases hi : Inst (r.head.sub (res h)) z <;> simp [hi, mul_comm]
      · rw [gsub_sub]
        congr 2
        rw [eq_iff_iff]
        have : gsub (fun n => gsub (ext (cut (vars (r.head.sub (res h))) (ext a))) (res h n)) r.head = gsub (fun n => gsub (ext a) (res h n)) r.head := by
          rw [← gsub_sub, ← gsub_sub]
          exact gsub_congr fun n hn => ext_cut hn
        rw [this]
    · intro θ φ hθ
      rw [gsub_congr (t := r.head) fun n hn => hθ n (hr (by simp [rvars, hn]))]

/-! ### Subgoals -/

theorem freshP_spec (k : Nat) (x : Tm) : Variant x (freshP k x).1 ∧ k ≤ (freshP k x).2 ∧ ∀ n ∈ vars (freshP k x).1, k ≤ n ∧ n < (freshP k x).2 := by
  obtain ⟨ws, ew, nd, m, s⟩ := ren_nil (k + ·) x
  unfold freshP
  simp only [ew]
  rw [s]
  refine ⟨⟨fun n => k + idx ws n, fun a ha b hb hab => ?_, rfl⟩, by omega, fun n hn => ?_⟩
  · have : idx ws a = idx ws b := by simp only at hab; omega
    exact idx_inj ((m a).2 ha) this
  · rw [mem_vars_ren] at hn
    obtain ⟨a, ha, rfl⟩ := hn
    have : idx ws a < ws.length := List.idxOf_lt_length_of_mem ((m a).2 ha)
    omega

/-- the continuation adds the rest of the product, whatever has been bound -/
def Cont (g : Cfg W) (r : WRule W) (V : Finset Nat) (k : W → Body (Chg W)) (G : (Nat → GTm) → GTm → W) : Prop :=
  ∀ v V' h', V ⊆ V' → Ok h' V' → Cov r h' V' → Adds g V' h' (k v) fun z => M h' V' fun θ => v * G θ z

open Classical in
theorem scan_adds {f : Nat} {V : Finset Nat} {h : Heap} (o : Ok h V) {r : WRule W} (hc : Cov r h V) {q : Tm} (hq : vars q ⊆ V)
    (hqr : vars q ⊆ rvars r) {k : W → Body (Chg W)} {G : (Nat → GTm) → GTm → W}
    (hG : ∀ θ φ z, (∀ n ∈ V, θ n = φ n) → G θ z = G φ z) (hk : Cont g r V k G) (chart : Dict Tm W) :
    Adds g V h (scan f chart q k) fun z => M h V fun θ => den chart (gsub θ q) * G θ z := by
  unfold scan
  refine (forEach_adds (X := fun xv z => M h V fun θ => (if Inst xv.1 (gsub θ q) then xv.2 else 0) * G θ z) fun xv _ => ?_).congr fun z => ?_
  · intro s h' s' hV hs e
    obtain ⟨v1, k1, f1⟩ := freshP_spec s.k xv.1
    simp only at e
    set x := freshP s.k xv.1 with hxdef
    have hd : ∀ n ∈ vars x.1, n ∉ V := fun n hn hnV => absurd (hV n hnV) (by have := (f1 n hn).1; omega)
    have o2 : Ok h (V ∪ vars x.1) := o.mono hd
    have hs2 : SOk g { s with k := x.2 } := ⟨hs.wf, hs.keys, hs.user, hs.canon⟩
    have hV2 : ∀ n ∈ V ∪ vars x.1, n < ({ s with k := x.2 } : Chg W).k := by
      intro n hn
      rcases Finset.mem_union.1 hn with h1 | h1
      · exact (hV n h1).trans_le k1
      · exact (f1 n h1).2
    obtain ⟨e1, e2, e3, e4⟩ := unify_adds (g := g) (F := fun θ z => xv.2 * G θ z) o2 Finset.subset_union_right (hq.trans Finset.subset_union_left)
      (fun h' o' hn hr => hk xv.2 _ h' Finset.subset_union_left o' (by
        have hres := (hr _).1 o'.good.respects_res
        intro n hnV hn0
        rcases Finset.mem_union.1 hnV with h1 | h1
        · exact hc.step o.good o'.good hn hres.1 n h1 hn0
        · have : n ∈ vars (x.1.sub (res h')) := mem_vars_sub.2 ⟨n, h1, by rw [res_unbound hn0]; simp⟩
          rw [hres.2] at this
          obtain ⟨m, hm, hv⟩ := mem_vars_sub.1 this
          exact ⟨m, hqr hm, hv⟩)) _ _ _ hV2 hs2 e
    refine ⟨e1, k1.trans e2, e3, fun z => ?_⟩
    rw [e4]
    congr 1
    beta_reduce
    rw [M_inst o hd hq (F := fun θ => xv.2 * G θ z) fun θ φ hθ => by rw [hG θ φ z hθ]]
    refine M_congr fun θ _ => ?_
    simp only [← inst_variant v1, ite_mul, zero_mul]
  · rw [M_list]
    refine M_congr fun θ _ => ?_
    unfold den
    rw [List.sum_map_mul_right]

theorem bval_none {ops : Ops} {c : Const} {as : List Tm} (h1 : c ≠ .str "=") (h2 : ∀ o x y, ops c = some o → as = [x, y] → False) :
    bval (W := W) ops (.app (.con c :: as)) = none := by
  rw [bval.eq_def]
  split
  · rename_i c' a b e
    simp only [Tm.app.injEq, List.cons.injEq, Tm.con.injEq] at e
    obtain ⟨rfl, rfl⟩ := e
    cases ho : ops c with
    | none => simp [h1]
    | some o => exact (h2 o a b ho rfl).elim
  · rfl

open Classical in
theorem lookup_adds (pl : Plain g) {f : Nat} {V : Finset Nat} {h : Heap} (o : Ok h V) {r : WRule W} (hc : Cov r h V) {q : Tm} (hq : vars q ⊆ V)
    (hqr : vars q ⊆ rvars r) {k : W → Body (Chg W)} {G : (Nat → GTm) → GTm → W}
    (hG : ∀ θ φ z, (∀ n ∈ V, θ n = φ n) → G θ z = G φ z) (hk : Cont g r V k G) (chart : Dict Tm W) :
    Adds g V h (lookupVals f g.ops chart q k) fun z => M h V fun θ => value g.ops chart (gsub θ q) * G θ z := by
  intro s h' s' hV hs e
  unfold lookupVals at e
  cases e1 : snapF h f q with
  | none => rw [e1] at e; cases e
  | some t =>
    rw [e1] at e
    have hsn := (snap_spec o.good e1).1
    have hqt : ∀ θ, Resp h θ → gsub θ q = gsub θ t := fun θ hθ => gsub_of_res o.good hθ hsn.symm
    have htV := o.snap e1 hq
    rcases t with n | c | l
    · simp only [Option.some.injEq, Prod.mk.injEq] at e
      exact absurd e.2.2 (by decide)
    · simp only [Option.some.injEq, Prod.mk.injEq] at e
      exact absurd e.2.2 (by decide)
    · rcases l with _ | ⟨fn, as⟩
      · simp only [Option.some.injEq, Prod.mk.injEq] at e
        exact absurd e.2.2 (by decide)
      rcases fn with n | c | l
      · simp only [Option.some.injEq, Prod.mk.injEq] at e
        exact absurd e.2.2 (by decide)
      swap
      · simp only [Option.some.injEq, Prod.mk.injEq] at e
        exact absurd e.2.2 (by decide)
      simp only at e
      split at e
      · simp only [Option.some.injEq, Prod.mk.injEq] at e
        exact absurd e.2.2 (by decide)
      split at e
      · rename_i hceq
        subst hceq
        split at e
        · rename_i x y
          have hx : vars x ⊆ V := fun n hn => htV (by simp [hn])
          have hy : vars y ⊆ V := fun n hn => htV (by simp [hn])
          obtain ⟨e1, e2, e3, e4⟩ := unify_adds (g := g) (F := fun θ z => 1 * G θ z) o hx hy
            (fun h' o' hn hr => hk 1 _ h' (le_refl _) o' (hc.step o.good o'.good hn ((hr _).1 o'.good.respects_res).1)) _ _ _ hV hs e
          refine ⟨e1, e2, e3, fun z => ?_⟩
          rw [e4]
          congr 1
          refine M_congr fun θ hθ => ?_
          rw [hqt θ hθ]
          have : value g.ops chart (gsub θ (.app [.con (.str "="), x, y])) = if gsub θ x = gsub θ y then 1 else 0 := by
            unfold value gsub
            simp only [sub_app, List.map_cons, sub_con, List.map_nil, bval, pl.eq, if_true, Option.getD_some, Subtype.mk.injEq]
          rw [this]
          by_cases hxy : gsub θ x = gsub θ y <;> simp [hxy]
        · simp only [Option.some.injEq, Prod.mk.injEq] at e
          exact absurd e.2.2 (by decide)
      · rename_i hceq
        have hscan : (∀ o x y, g.ops c = some o → as = [x, y] → False) → scan f chart q k h s = some (h', s', .done) →
            h' = h ∧ s.k ≤ s'.k ∧ SOk g s' ∧ ∀ z, den s'.change z = den s.change z + M h V fun θ => value g.ops chart (gsub θ q) * G θ z := by
          intro ho e
          obtain ⟨e1, e2, e3, e4⟩ := scan_adds (f := f) o hc hq hqr hG hk chart _ _ _ hV hs e
          refine ⟨e1, e2, e3, fun z => ?_⟩
          rw [e4]
          congr 1
          refine M_congr fun θ hθ => ?_
          rw [hqt θ hθ]
          unfold value gsub
          simp only [sub_app, List.map_cons, sub_con]
          rw [bval_none hceq fun o x y h1 h2 => by
            rcases as with _ | ⟨a, _ | ⟨b, _ | ⟨c, as⟩⟩⟩ <;> simp at h2
            exact ho o a b h1 rfl]
          rfl
        split at e
        · rename_i op x y ho
          split at e
          · rename_i x' y' g1 g2 d1 d2
            have hv : ∀ θ, Resp h θ → value g.ops chart (gsub θ q) = if op x' y' then 1 else 0 := by
              intro θ hθ
              rw [hqt θ hθ]
              have hx := ground_val o.good g1
              have hy := ground_val o.good g2
              have hx' := deref_eq_sub d1
              have hy' := deref_eq_sub d2
              have ex : x.sub (fun n => (θ n).1) = x' := by
                rw [← o.good.sub_res hθ x, ← hx']
                exact Unfold.sub_closed (by rw [hx']; exact hx.1 rfl) _
              have ey : y.sub (fun n => (θ n).1) = y' := by
                rw [← o.good.sub_res hθ y, ← hy']
                exact Unfold.sub_closed (by rw [hy']; exact hy.1 rfl) _
              unfold value gsub
              simp only [sub_app, List.map_cons, sub_con, List.map_nil, bval, ho, ex, ey, Option.getD_some]
            split at e
            · rename_i hop
              obtain ⟨e1, e2, e3, e4⟩ := hk 1 _ h (le_refl _) o hc _ _ _ hV hs e
              refine ⟨e1, e2, e3, fun z => ?_⟩
              rw [e4]
              congr 1
              refine M_congr fun θ hθ => ?_
              rw [hv θ hθ, if_pos hop]
            · rename_i hop
              simp only [Option.some.injEq, Prod.mk.injEq] at e
              obtain ⟨rfl, rfl, _⟩ := e
              refine ⟨rfl, le_refl _, hs, fun z => ?_⟩
              beta_reduce
              rw [M_zero fun θ hθ => by rw [hv θ hθ, if_neg hop, zero_mul], add_zero]
          · simp only [Option.some.injEq, Prod.mk.injEq] at e
            exact absurd e.2.2 (by decide)
          · cases e
        · rename_i hno
          refine hscan (fun o x y h1 h2 => ?_) e
          subst h2
          exact hno _ _ _ h1 rfl

theorem join_adds (pl : Plain g) {f : Nat} {r : WRule W} {G : (Nat → GTm) → GTm → W} (chart : Dict Tm W) {U : Finset Nat} (hU : rvars r ⊆ U)
    (hG : ∀ θ φ z, (∀ n ∈ U, θ n = φ n) → G θ z = G φ z) {k : W → Body (Chg W)} (hk : Cont g r U k G) :
    ∀ {xs : List (Lit W)}, bodyVars xs ⊆ rvars r → ∀ (v : W) (V : Finset Nat) (h : Heap), U ⊆ V → Ok h V → Cov r h V →
      Adds g V h (join f g.ops chart xs v k) fun z => M h V fun θ => v * (bv (value g.ops chart) θ xs * G θ z)
  | [], _, v, V, h, hV, o, hc => by
    refine (hk v V h hV o hc).congr fun z => M_congr fun θ _ => ?_
    rw [bv_nil, one_mul]
  | .val c :: xs, hx, v, V, h, hV, o, hc => by
    refine (join_adds pl chart hU hG hk (xs := xs) (fun n hn => hx (by simp [bodyVars, hn])) (v * c) V h hV o hc).congr fun z => M_congr fun θ _ => ?_
    rw [bv_cons]
    simp only [lv]
    ring
  | .sub q :: xs, hx, v, V, h, hV, o, hc => by
    have hqr : vars q ⊆ rvars r := fun n hn => hx (by simp [bodyVars, litVars, hn])
    have hxs : bodyVars xs ⊆ rvars r := fun n hn => hx (by simp [bodyVars, hn])
    refine (lookup_adds pl (f := f) o hc (hqr.trans (hU.trans hV)) hqr (G := fun θ z => v * (bv (value g.ops chart) θ xs * G θ z))
      (fun θ φ z hθ => ?_) (fun w V' h' hV' o' hc' => ?_) chart).congr fun z => M_congr fun θ _ => ?_
    · rw [hG θ φ z fun n hn => hθ n (hV hn), bv_congr fun n hn => hθ n (hV (hU (hxs hn)))]
    · refine (join_adds pl chart hU hG hk hxs (v * w) V' h' (hV.trans hV') o' hc').congr fun z => M_congr fun θ _ => ?_
      ring
    · rw [bv_cons]
      simp only [lv]
      ring

/-! ### Driving the rules by a popped item -/

open Classical in
/-- the change of a product that the position `bi` of the body accounts for -/
noncomputable def deltaLit (v : GTm → W) (a : Tm) (Δ : W) (body : List (Lit W)) (θ : Nat → GTm) (bi : Lit W × Nat) : W :=
  match bi.1 with
  | .val _ => 0
  | .sub b => if Inst a (gsub θ b) then bv v θ (body.set bi.2 (.val Δ)) else 0

theorem cov_noHeap {r : WRule W} {a : Tm} {h : Heap} {b : Tm} (hb : vars b ⊆ rvars r) (hg : Good h) (he : a.sub (res h) = b.sub (res h)) :
    Cov r h (rvars r ∪ vars a) := by
  intro n hn hn0
  rcases Finset.mem_union.1 hn with h1 | h1
  · exact ⟨n, h1, by rw [res_unbound hn0]; simp⟩
  · have : n ∈ vars (a.sub (res h)) := mem_vars_sub.2 ⟨n, h1, by rw [res_unbound hn0]; simp⟩
    rw [he] at this
    obtain ⟨m, hm, hv⟩ := mem_vars_sub.1 this
    exact ⟨m, hb hm, hv⟩

theorem bodyVars_set {b : List (Lit W)} {i : Nat} {c : W} : bodyVars (b.set i (.val c)) ⊆ bodyVars b := by
  intro n hn
  obtain ⟨l, hl, hn⟩ := mem_bodyVars.1 hn
  rcases List.mem_or_eq_of_mem_set hl with h | h
  · exact mem_bodyVars.2 ⟨l, h, hn⟩
  · subst h; simp [litVars] at hn

open Classical in
theorem emit_cont (pl : Plain g) {f : Nat} {r : WRule W} (hu : UserHead g.ops r.head) {U : Finset Nat} (hU : rvars r ⊆ U) :
    Cont g r U (emit g f r) fun θ z => if gsub θ r.head = z then 1 else 0 :=
  fun v _ _ hV o hc => emit_adds pl o (hU.trans hV) hc hu v

open Classical in
theorem driveAt_adds (pl : Plain g) {f : Nat} {r : WRule W} (hu : UserHead g.ops r.head) (chart : Dict Tm W) {a : Tm} (Δ : W)
    (ha : ∀ n ∈ vars a, n ∉ rvars r) {bi : Lit W × Nat} (hbi : bi.1 ∈ r.body) :
    Adds g (rvars r ∪ vars a) noHeap (driveAt g f chart a Δ r bi) fun z =>
      M noHeap (rvars r) fun θ => deltaLit (value g.ops chart) a Δ r.body θ bi * if gsub θ r.head = z then 1 else 0 := by
  obtain ⟨l, i⟩ := bi
  cases l with
  | val c =>
    intro s h' s' _ hs e
    simp only [driveAt, Option.some.injEq, Prod.mk.injEq] at e
    obtain ⟨rfl, rfl, _⟩ := e
    refine ⟨rfl, le_refl _, hs, fun z => ?_⟩
    beta_reduce
    rw [M_zero fun θ _ => by simp [deltaLit], add_zero]
  | sub b =>
    have hb : vars b ⊆ rvars r := fun n hn => litVars_sub_rvars hbi (by simpa [litVars] using hn)
    have hset : bodyVars (r.body.set i (.val Δ)) ⊆ rvars r := fun n hn => by
      simp only [rvars, Finset.mem_union]; exact .inr (bodyVars_set hn)
    refine (unify_adds (F := fun θ z => 1 * (bv (value g.ops chart) θ (r.body.set i (.val Δ)) * if gsub θ r.head = z then 1 else 0))
      (ok_noHeap _) Finset.subset_union_right (hb.trans Finset.subset_union_left) fun h' o' hn hr => ?_).congr fun z => ?_
    · exact join_adds pl chart (U := rvars r ∪ vars a) Finset.subset_union_left
        (fun θ φ z hθ => by rw [gsub_congr (t := r.head) fun n hn => hθ n (by simp [rvars, hn])])
        (emit_cont pl hu Finset.subset_union_left) hset 1 _ h' (le_refl _) o'
        (cov_noHeap hb o'.good ((hr _).1 o'.good.respects_res).2)
    · rw [M_inst (ok_noHeap _) ha hb (F := fun θ => 1 * (bv (value g.ops chart) θ (r.body.set i (.val Δ)) * if gsub θ r.head = z then 1 else 0))
        fun θ φ hθ => by
          rw [gsub_congr (t := r.head) fun n hn => hθ n (by simp [rvars, hn]), bv_congr fun n hn => hθ n (hset hn)]]
      refine M_congr fun θ _ => ?_
      simp only [deltaLit, one_mul, ite_mul, zero_mul]

open Classical in
/-- what driving the rules by the item `a` adds -/
noncomputable def driven (rules : List (WRule W)) (v : GTm → W) (a : Tm) (Δ : W) (z : GTm) : W :=
  (rules.map fun r => M noHeap (rvars r) fun θ => (r.body.zipIdx.map (deltaLit v a Δ r.body θ)).sum * if gsub θ r.head = z then 1 else 0).sum

theorem drive_spec (pl : Plain g) {f : Nat} (hu : ∀ r ∈ g.rules, UserHead g.ops r.head) (chart : Dict Tm W) {a : Tm} (Δ : W) {s : Chg W} {h' s'}
    (hk : ∀ r ∈ g.rules, ∀ n ∈ rvars r, n < s.k) (hs : SOk g s) (e : drive g f chart a Δ noHeap s = some (h', s', .done)) :
    s.k ≤ s'.k ∧ SOk g s' ∧ ∀ z, den s'.change z = den s.change z + driven g.rules (value g.ops chart) a Δ z := by
  classical
  unfold drive at e
  simp only at e
  obtain ⟨v1, k1, f1⟩ := freshP_spec s.k a
  set x := freshP s.k a with hx
  set V : Finset Nat := (g.rules.map rvars).foldr (· ∪ ·) ∅ ∪ vars x.1 with hVdef
  have hsub : ∀ r ∈ g.rules, rvars r ⊆ (g.rules.map rvars).foldr (· ∪ ·) ∅ := by
    intro r hr
    generalize g.rules = l at hr
    induction l with
    | nil => cases hr
    | cons r' l ih =>
      rcases List.mem_cons.1 hr with h | h
      · subst h; exact Finset.subset_union_left
      · exact (ih h).trans Finset.subset_union_right
  have hmem : ∀ n, n ∈ (g.rules.map rvars).foldr (· ∪ ·) ∅ → ∃ r ∈ g.rules, n ∈ rvars r := by
    intro n
    generalize g.rules = l
    induction l with
    | nil => intro h; simp at h
    | cons r' l ih =>
      intro h
      rcases Finset.mem_union.1 h with h | h
      · exact ⟨r', by simp, h⟩
      · obtain ⟨r, h1, h2⟩ := ih h
        exact ⟨r, by simp [h1], h2⟩
  have hs2 : SOk g { s with k := x.2 } := ⟨hs.wf, hs.keys, hs.user, hs.canon⟩
  have key : Adds g V noHeap (forEach g.rules fun r => forEach r.body.zipIdx (driveAt g f chart x.1 Δ r)) fun z =>
      (g.rules.map fun r => (r.body.zipIdx.map fun bi => M noHeap (rvars r) fun θ =>
        deltaLit (value g.ops chart) x.1 Δ r.body θ bi * if gsub θ r.head = z then 1 else 0).sum).sum := by
    refine forEach_adds fun r hr => forEach_adds fun bi hbi => ?_
    refine (driveAt_adds pl (hu r hr) chart Δ (fun n hn hn2 => ?_) ?_).mono (Finset.union_subset_union (hsub r hr) (le_refl _))
    · have := hk r hr n hn2
      have := (f1 n hn).1
      omega
    · exact List.mem_of_getElem? (List.mem_zipIdx_iff_getElem?.1 hbi)
  obtain ⟨_, e2, e3, e4⟩ := key _ _ _ (fun n hn => by
    rcases Finset.mem_union.1 hn with h | h
    · obtain ⟨r, h1, h2⟩ := hmem n h
      exact (hk r h1 n h2).trans_le k1
    · exact (f1 n h).2) hs2 e
  refine ⟨k1.trans e2, e3, fun z => ?_⟩
  rw [e4]
  congr 1
  unfold driven
  beta_reduce
  congr 1
  refine List.map_congr_left fun r _ => ?_
  rw [M_list]
  refine M_congr fun θ _ => ?_
  rw [List.sum_map_mul_right]
  congr 2
  refine List.map_congr_left fun bi _ => ?_
  unfold deltaLit
  cases bi.1 with
  | val c => rfl
  | sub b => simp only [inst_variant v1]

open Classical in
/-- one position at a time, if at most one position changes -/
theorem bv_change {v v' : GTm → W} {a : Tm} {Δ : W} (hv : ∀ z, v' z = v z + if Inst a z then Δ else 0) (θ : Nat → GTm) :
    ∀ {b : List (Lit W)}, (∀ (i j : Nat) (p q : Tm), i ≠ j → b[i]? = some (.sub p) → b[j]? = some (.sub q) →
        ¬ (Inst a (gsub θ p) ∧ Inst a (gsub θ q))) →
      bv v' θ b = bv v θ b + (b.zipIdx.map (deltaLit v' a Δ b θ)).sum
  | [], _ => by simp [bv]
  | l :: b, hd => by
    have ih := bv_change hv θ (b := b) fun i j p q hij hi hj => hd (i + 1) (j + 1) p q (by omega) (by simpa using hi) (by simpa using hj)
    have htail : ((b.zipIdx 1).map (deltaLit v' a Δ (l :: b) θ)).sum = lv v' θ l * (b.zipIdx.map (deltaLit v' a Δ b θ)).sum := by
      rw [List.zipIdx_succ, List.map_map, ← List.sum_map_mul_left]
      congr 1
      refine List.map_congr_left fun p _ => ?_
      obtain ⟨m, i⟩ := p
      cases m with
      | val c => simp [deltaLit]
      | sub t => simp only [Function.comp, deltaLit, List.set_cons_succ, bv_cons, mul_ite, mul_zero]
    rw [List.zipIdx_cons, List.map_cons, List.sum_cons, Nat.zero_add, htail, bv_cons, bv_cons, ih]
    cases l with
    | val c => simp only [lv, deltaLit]; ring
    | sub t =>
      have h0 : deltaLit v' a Δ (.sub t :: b) θ (.sub t, 0) = if Inst a (gsub θ t) then Δ * bv v' θ b else 0 := by
        simp only [deltaLit, List.set_cons_zero, bv_cons, lv]
      rw [h0]
      simp only [lv, hv]
      by_cases hi : Inst a (gsub θ t)
      · have hz : (b.zipIdx.map (deltaLit v' a Δ b θ)).sum = 0 := by
          apply List.sum_eq_zero
          intro x hx
          obtain ⟨⟨m, i⟩, hm, rfl⟩ := List.mem_map.1 hx
          cases m with
          | val c => rfl
          | sub q =>
            simp only [deltaLit]
            rw [if_neg]
            intro hq
            exact hd 0 (i + 1) t q (by omega) rfl (by simpa using List.mem_zipIdx_iff_getElem?.1 hm) ⟨hi, hq⟩
        rw [hz] at ih
        simp only [if_pos hi, hz, ih, add_zero, mul_zero]
        ring
      · simp only [if_neg hi, add_zero, zero_add]
        ring

/-- the step operator after the item changed -/
theorem T_change {v v' : GTm → W} {a : Tm} {Δ : W} (hv : ∀ z, open Classical in v' z = v z + if Inst a z then Δ else 0) {rules : List (WRule W)}
    (hd : NoDouble rules a) (z : GTm) : T rules v' z = T rules v z + driven rules v' a Δ z := by
  classical
  unfold T driven
  rw [← List.sum_map_add]
  congr 1
  refine List.map_congr_left fun r hr => ?_
  rw [M_noHeap]
  unfold contrib
  rw [← isum_add]
  refine isum_congr fun b => ?_
  have hbv := bv_change (v := v) (v' := v') (a := a) (Δ := Δ) (fun z => by rw [hv z]) (ext b) (b := r.body)
    fun i j p q hij hi hj => hd r hr i j p q hij hi hj (ext b)
  by_cases hh : gsub (ext b) r.head = z
  · simp only [if_pos hh, mul_one, hbv]
  · simp [hh]

/-! ### Initializing a rule -/

theorem init_spec (pl : Plain g) {f : Nat} {r : WRule W} (hu : UserHead g.ops r.head) (chart : Dict Tm W) {s : Chg W} {h' s'}
    (hs : SOk g s) (e : initRule g f chart r noHeap s = some (h', s', .done)) :
    s.k ≤ s'.k ∧ SOk g s' ∧ ∀ z, den s'.change z = den s.change z + contrib r (value g.ops chart) z := by
  classical
  unfold initRule at e
  simp only at e
  obtain ⟨ρ, h1, h2, h3, h4⟩ := freshR_spec s.k r
  set r' := freshR s.k r with hr'
  have hs2 : SOk g { s with k := r'.2 } := ⟨hs.wf, hs.keys, hs.user, hs.canon⟩
  have hu' : UserHead g.ops r'.1.head := by rw [h1]; exact user_sub hu _
  have hrv : ∀ n ∈ rvars r'.1, n < r'.2 := by
    intro n hn
    rw [h1, rvars_renRule] at hn
    obtain ⟨m, hm, rfl⟩ := Finset.mem_image.1 hn
    exact (h3 m hm).2
  obtain ⟨_, e2, e3, e4⟩ := join_adds pl chart (U := rvars r'.1) (le_refl _)
    (G := fun θ z => if gsub θ r'.1.head = z then 1 else 0)
    (fun θ φ z hθ => by rw [gsub_congr (t := r'.1.head) fun n hn => hθ n (by simp [rvars, hn])])
    (emit_cont pl hu' (le_refl _)) (xs := r'.1.body) (fun n hn => by simp [rvars, hn]) 1 (rvars r'.1) noHeap (le_refl _) (ok_noHeap _)
    (fun n hn hn0 => ⟨n, hn, by rw [res_unbound hn0]; simp⟩) _ _ _ hrv hs2 e
  refine ⟨h4.trans e2, e3, fun z => ?_⟩
  rw [e4]
  beta_reduce
  congr 1
  rw [← contrib_ren h2, ← h1, M_noHeap]
  unfold contrib
  refine isum_congr fun a => ?_
  by_cases hh : gsub (ext a) r'.1.head = z <;> simp [hh]

/-! ### States of the solver -/

/-- the buffers and the chart are consistent, and the variables of the rules are allocated -/
structure Shape (g : Cfg W) (st : St W) : Prop where
  sok : SOk g st.chg
  wf : Dict.WF st.chart
  user : ∀ x ∈ Dict.keys st.chart, UserHead g.ops x
  below : ∀ r ∈ g.rules, ∀ n ∈ rvars r, n < st.chg.k

/-- chart and pending changes account for the data and the rules initialized so far -/
def Eqn (g : Cfg W) (D : GTm → W) (st : St W) : Prop :=
  ∀ z, den st.chart z + den st.chg.change z =
    D z + (g.rules.zipIdx.map fun p => if p.2 ∈ st.inited then contrib p.1 (value g.ops st.chart) z else 0).sum

theorem sum_inited {α : Type} (c : α → W) {S : List Nat} {i : Nat} (hi : i ∉ S) : ∀ (l : List α) (n : Nat) (a : α), n ≤ i → l[i - n]? = some a →
    ((l.zipIdx n).map fun p => if p.2 ∈ i :: S then c p.1 else 0).sum = ((l.zipIdx n).map fun p => if p.2 ∈ S then c p.1 else 0).sum + c a
  | [], n, a, _, h => by simp at h
  | b :: l, n, a, hn, h => by
    simp only [List.zipIdx_cons, List.map_cons, List.sum_cons]
    rcases Nat.lt_or_eq_of_le hn with h1 | h1
    · have h2 : i - n = (i - (n + 1)) + 1 := by omega
      rw [h2, List.getElem?_cons_succ] at h
      rw [sum_inited c hi l (n + 1) a (by omega) h]
      have : (n ∈ i :: S) ↔ n ∈ S := by
        simp only [List.mem_cons, or_iff_right_iff_imp]; omega
      simp only [this]
      rw [add_assoc]
    · subst h1
      simp only [Nat.sub_self, List.getElem?_cons_zero, Option.some.injEq] at h
      subst h
      have h3 : (l.zipIdx (n + 1)).map (fun p => if p.2 ∈ n :: S then c p.1 else 0) = (l.zipIdx (n + 1)).map fun p => if p.2 ∈ S then c p.1 else 0 := by
        refine List.map_congr_left fun p hp => ?_
        have := (List.mem_zipIdx (x := p.1) (i := p.2) hp).1
        have : (p.2 ∈ n :: S) ↔ p.2 ∈ S := by
          simp only [List.mem_cons, or_iff_right_iff_imp]; omega
        simp only [this]
      rw [h3]
      simp only [List.mem_cons, true_or, if_true, if_neg hi]
      ring

theorem initAll_spec (pl : Plain g) (hu : ∀ r ∈ g.rules, UserHead g.ops r.head) {f : Nat} : ∀ {rs : List (WRule W)} {i : Nat} {st st' : St W},
    (∀ j, rs[j]? = g.rules[i + j]?) → Shape g st → initAll g f rs i st = some (st', .done) →
    Shape g st' ∧ st'.chart = st.chart ∧ (∀ j ∈ st.inited, j ∈ st'.inited) ∧ (∀ j, j < rs.length → i + j ∈ st'.inited) ∧
      ∀ D, Eqn g D st → Eqn g D st'
  | [], i, st, st', _, hsh, e => by
    simp only [initAll, Option.some.injEq, Prod.mk.injEq, and_true] at e
    subst e
    exact ⟨hsh, rfl, fun j hj => hj, fun j hj => by simp at hj, fun D h => h⟩
  | r :: rs, i, st, st', hrs, hsh, e => by
    have hr0 : g.rules[i]? = some r := by have := hrs 0; simpa using this.symm
    have hrs' : ∀ j, rs[j]? = g.rules[i + 1 + j]? := fun j => by
      have := hrs (j + 1)
      rw [List.getElem?_cons_succ] at this
      rw [this]; congr 1; omega
    simp only [initAll] at e
    split at e
    · rename_i hin
      obtain ⟨h1, h2, h3, h4, h5⟩ := initAll_spec pl hu hrs' hsh e
      refine ⟨h1, h2, h3, fun j hj => ?_, h5⟩
      cases j with
      | zero => exact h3 i hin
      | succ j =>
        have := h4 j (by simpa using hj)
        rwa [show i + (j + 1) = i + 1 + j by omega]
    · rename_i hin
      split at e
      · cases e
      · rename_i h' s' e1
        have hmem : r ∈ g.rules := List.mem_of_getElem? hr0
        obtain ⟨k1, o1, d1⟩ := init_spec pl (hu r hmem) st.chart hsh.sok e1
        have hsh' : Shape g ⟨st.chart, s', i :: st.inited⟩ :=
          ⟨o1, hsh.wf, hsh.user, fun r hr n hn => (hsh.below r hr n hn).trans_le k1⟩
        obtain ⟨h1, h2, h3, h4, h5⟩ := initAll_spec pl hu hrs' hsh' e
        refine ⟨h1, h2, fun j hj => h3 j (by simp [hj]), fun j hj => ?_, fun D hD => h5 D fun z => ?_⟩
        · cases j with
          | zero => exact h3 i (by simp)
          | succ j =>
            have := h4 j (by simpa using hj)
            rwa [show i + (j + 1) = i + 1 + j by omega]
        · simp only
          rw [d1, ← add_assoc, hD z, add_assoc, sum_inited (fun r => contrib r (value g.ops st.chart) z) hin g.rules 0 r (by omega) (by simpa using hr0)]
      · rename_i s' sig hne e1
        simp only [Option.some.injEq, Prod.mk.injEq] at e
        exact (hne e.2).elim

theorem eqn_all {D : GTm → W} {st : St W} (ha : ∀ j, j < g.rules.length → j ∈ st.inited) :
    Eqn g D st ↔ ∀ z, den st.chart z + den st.chg.change z = D z + T g.rules (value g.ops st.chart) z := by
  have : ∀ z, (g.rules.zipIdx.map fun p => if p.2 ∈ st.inited then contrib p.1 (value g.ops st.chart) z else 0).sum =
      T g.rules (value g.ops st.chart) z := by
    intro z
    unfold T
    have h1 : (g.rules.zipIdx.map fun p => if p.2 ∈ st.inited then contrib p.1 (value g.ops st.chart) z else 0) =
        g.rules.zipIdx.map fun p => contrib p.1 (value g.ops st.chart) z := by
      refine List.map_congr_left fun p hp => if_pos (ha _ ?_)
      have := List.mem_zipIdx_iff_getElem?.1 hp
      by_contra hlt
      rw [List.getElem?_eq_none (by omega)] at this
      cases this
    rw [h1]
    congr 1
    have h2 : (fun p : WRule W × Nat => contrib p.1 (value g.ops st.chart) z) = (fun r => contrib r (value g.ops st.chart) z) ∘ Prod.fst := rfl
    rw [h2, ← List.map_map, List.zipIdx_map_fst]
  unfold Eqn
  simp only [this]

theorem inst_user {ops : Ops} {x : Tm} (h : UserHead ops x) {z : GTm} (hi : Inst x z) : bval (W := W) ops z.1 = none := by
  obtain ⟨θ, rfl⟩ := hi
  obtain ⟨c, as, rfl, h1, h2⟩ := h
  simp only [gsub, sub_app, List.map_cons, sub_con]
  exact bval_none h2 fun o x y h3 _ => by rw [h1] at h3; cases h3

theorem den_builtin {ops : Ops} {d : Dict Tm W} (h : ∀ x ∈ Dict.keys d, UserHead ops x) {z : GTm} {b : W} (hb : bval ops z.1 = some b) : den d z = 0 := by
  unfold den
  apply List.sum_eq_zero
  intro x hx
  obtain ⟨p, hp, rfl⟩ := List.mem_map.1 hx
  rw [if_neg]
  intro hi
  rw [inst_user (h p.1 (List.mem_map.2 ⟨p, hp, rfl⟩)) hi] at hb
  cases hb

open Classical in
theorem den_del : ∀ {d : Dict Tm W}, Dict.WF d → ∀ {a : Tm} {Δ : W}, d.get a = some Δ → ∀ z, den d z = den (d.del a) z + if Inst a z then Δ else 0
  | [], _, a, Δ, h, _ => by simp at h
  | (k, v) :: d, hwf, a, Δ, h, z => by
    have hwf' : Dict.WF d := (List.nodup_cons.1 hwf).2
    have hnk : k ∉ Dict.keys d := (List.nodup_cons.1 hwf).1
    rw [Dict.get_cons] at h
    by_cases hk : k = a
    · subst hk
      simp only [if_true, Option.some.injEq] at h
      subst h
      have hdel : ∀ {d : Dict Tm W}, k ∉ Dict.keys d → d.del k = d := by
        intro d
        induction d with
        | nil => intro _; rfl
        | cons p d ih =>
          intro hn
          obtain ⟨k', v'⟩ := p
          simp only [Dict.keys_cons, List.mem_cons, not_or] at hn
          simp only [Dict.del, if_neg (Ne.symm hn.1), ih hn.2]
      simp only [Dict.del, if_true, hdel hnk]
      simp only [den, List.map_cons, List.sum_cons]
      ring
    · rw [if_neg hk] at h
      have := den_del hwf' h z
      simp only [Dict.del, if_neg hk]
      simp only [den, List.map_cons, List.sum_cons] at this ⊢
      rw [this]
      ring

open Classical in
theorem value_set {ops : Ops} {d : Dict Tm W} {a : Tm} (ha : UserHead ops a) (c : W) (z : GTm) :
    value ops (d.set a ((d.get a).getD 0 + c)) z = value ops d z + if Inst a z then c else 0 := by
  have h1 : (d.get a).getD 0 + c = plus (d.get a) c := by cases d.get a <;> simp [plus]
  rw [h1]
  unfold value
  cases hb : bval (W := W) ops z.1 with
  | none => simp only [Option.getD_none, den_set]
  | some b =>
    simp only [Option.getD_some]
    rw [if_neg, add_zero]
    intro hi
    rw [inst_user ha hi] at hb
    cases hb

open Classical in
theorem den_set' {d : Dict Tm W} {a : Tm} (c : W) (z : GTm) : den (d.set a ((d.get a).getD 0 + c)) z = den d z + if Inst a z then c else 0 := by
  have h1 : (d.get a).getD 0 + c = plus (d.get a) c := by cases d.get a <;> simp [plus]
  rw [h1, den_set]

theorem set_same {d : Dict Tm W} {a : Tm} {c : W} (h : d.get a = some c) : d.set a c = d := by
  induction d with
  | nil => simp at h
  | cons p d ih =>
    obtain ⟨k, v⟩ := p
    rw [Dict.get_cons] at h
    by_cases hk : k = a
    · subst hk
      simp only [if_true, Option.some.injEq] at h
      subst h
      simp [Dict.set]
    · rw [if_neg hk] at h
      simp only [Dict.set, if_neg hk, ih h]

/-- what one iteration does: nothing but removing an ineffective change, or moving the change to the chart and
driving the rules -/
theorem pop_spec (pl : Plain g) (hu : ∀ r ∈ g.rules, UserHead g.ops r.head) (hx : ∀ x y, g.approx x y = true → x = y) {f : Nat} {a : Tm}
    {st st' : St W} (hsh : Shape g st) (e : popF g f st a = some (st', .done)) :
    Shape g st' ∧ st'.inited = st.inited ∧ UserHead g.ops a ∧ ∃ Δ, st.chg.change.get a = some Δ ∧
      (∀ z, open Classical in den st.chg.change z = den (st.chg.change.del a) z + if Inst a z then Δ else 0) ∧
      (∀ z, open Classical in den st'.chart z = den st.chart z + if Inst a z then Δ else 0) ∧
      (∀ z, open Classical in value g.ops st'.chart z = value g.ops st.chart z + if Inst a z then Δ else 0) ∧
      ((st'.chart = st.chart ∧ ∀ z, den st'.chg.change z = den (st.chg.change.del a) z) ∨
        ∀ z, den st'.chg.change z = den (st.chg.change.del a) z + driven g.rules (value g.ops st'.chart) a Δ z) := by
  classical
  unfold popF at e
  cases hΔ : st.chg.change.get a with
  | none =>
    rw [hΔ] at e
    simp only [Option.some.injEq, Prod.mk.injEq] at e
    exact absurd e.2 (by decide)
  | some Δ =>
    rw [hΔ] at e
    simp only at e
    have hak : a ∈ Dict.keys st.chg.change := (Dict.get_isSome_iff _ _).1 (by rw [hΔ]; rfl)
    have hua := hsh.sok.user a hak
    have hca := hsh.sok.canon a hak
    have hsd : SOk g ⟨st.chg.change.del a, st.chg.agenda.del a, st.chg.pushes, st.chg.k⟩ := by
      refine ⟨hsh.sok.wf.del _, fun x => ?_, fun x h => ?_, fun x h => ?_⟩
      · simp only [mem_keys_del, hsh.sok.keys]
      · simp only [mem_keys_del] at h; exact hsh.sok.user x h.1
      · simp only [mem_keys_del] at h; exact hsh.sok.canon x h.1
    split at e
    · rename_i happ
      simp only [Option.some.injEq, Prod.mk.injEq, and_true] at e
      subst e
      have hsame : st.chart.set a ((st.chart.get a).getD 0 + Δ) = st.chart ∨ Δ = 0 := by
        have h1 := hx _ _ happ
        cases hg : st.chart.get a with
        | none => right; rw [hg] at h1; simpa using h1
        | some c => left; rw [hg] at h1; rw [h1]; simp only [Option.getD_some]; exact set_same hg
      have hden : ∀ z, den st.chart z = den st.chart z + if Inst a z then Δ else 0 := by
        intro z
        rcases hsame with h1 | h1
        · have := den_set' (d := st.chart) (a := a) Δ z
          rwa [h1] at this
        · simp [h1]
      have hval : ∀ z, value g.ops st.chart z = value g.ops st.chart z + if Inst a z then Δ else 0 := by
        intro z
        rcases hsame with h1 | h1
        · have := value_set (d := st.chart) hua Δ z
          rwa [h1] at this
        · simp [h1]
      exact ⟨⟨hsd, hsh.wf, hsh.user, hsh.below⟩, rfl, hua, Δ, rfl, fun z => by convert den_del hsh.sok.wf hΔ z,
        fun z => by convert hden z, fun z => by convert hval z, .inl ⟨rfl, fun z => rfl⟩⟩
    · rw [hca] at e
      split at e
      · cases e
      · rename_i h' s' sig e1
        simp only [Option.some.injEq, Prod.mk.injEq] at e
        obtain ⟨rfl, rfl⟩ := e
        obtain ⟨k1, o1, d1⟩ := drive_spec pl hu _ Δ (s := ⟨st.chg.change.del a, st.chg.agenda.del a, st.chg.pushes, st.chg.k⟩) hsh.below hsd e1
        refine ⟨⟨o1, hsh.wf.set _ _, fun x h => ?_, fun r hr n hn => (hsh.below r hr n hn).trans_le k1⟩, rfl, hua, Δ, rfl,
          fun z => by convert den_del hsh.sok.wf hΔ z, fun z => by convert den_set' (d := st.chart) (a := a) Δ z,
          fun z => by convert value_set (d := st.chart) hua Δ z, .inr d1⟩
        simp only [mem_keys_set] at h
        rcases h with rfl | h
        · exact hua
        · exact hsh.user x h

theorem pop_eqn (pl : Plain g) (hu : ∀ r ∈ g.rules, UserHead g.ops r.head) (hx : ∀ x y, g.approx x y = true → x = y) {f : Nat} {a : Tm}
    {st st' : St W} (hsh : Shape g st) (e : popF g f st a = some (st', .done)) (hd : NoDouble g.rules a) {D : GTm → W}
    (h : ∀ z, den st.chart z + den st.chg.change z = D z + T g.rules (value g.ops st.chart) z) :
    ∀ z, den st'.chart z + den st'.chg.change z = D z + T g.rules (value g.ops st'.chart) z := by
  intro z
  obtain ⟨_, _, _, Δ, _, h2, h3, h4, h5⟩ := pop_spec pl hu hx hsh e
  rcases h5 with ⟨h5, h6⟩ | h5
  · rw [h5] at h3 ⊢
    rw [h6, ← h z, h2 z]
    conv_lhs => rw [h3 z]
    ring
  · rw [T_change h4 hd, ← add_assoc, ← h z, h2 z, h5, h3]
    ring

/-! ### Whole runs -/

/-- the states a solver can be in between its methods, with the data loaded so far: start, `update` with a chart,
`_forward_chaining` popping only items that satisfy `P` -/
inductive Runs (g : Cfg W) (P : Tm → Prop) : (GTm → W) → St W → Prop
  | start {k : Nat} : (∀ r ∈ g.rules, ∀ n ∈ rvars r, n < k) → Runs g P (fun _ => 0) (St.empty k)
  | load {D st f d st'} : Runs g P D st → (∀ x ∈ Dict.keys d, UserHead g.ops x) → loadAll g f d st = some (st', .done) →
      Runs g P (fun z => D z + den d z) st'
  | chain {D st st'} : Runs g P D st → ForwardChaining g P st st' → Runs g P D st'

theorem load_spec (pl : Plain g) {f : Nat} : ∀ {d : Dict Tm W} {st st' : St W}, (∀ x ∈ Dict.keys d, UserHead g.ops x) → Shape g st →
    loadAll g f d st = some (st', .done) → Shape g st' ∧ st'.chart = st.chart ∧ st'.inited = st.inited ∧
      ∀ z, den st'.chg.change z = den st.chg.change z + den d z
  | [], st, st', _, hsh, e => by
    simp only [loadAll, Option.some.injEq, Prod.mk.injEq, and_true] at e
    subst e
    exact ⟨hsh, rfl, rfl, fun z => by simp [den]⟩
  | (x, v) :: d, st, st', hu, hsh, e => by
    classical
    simp only [loadAll] at e
    split at e
    · cases e
    · rename_i h' s' e1
      obtain ⟨_, k1, o1, d1⟩ := update_adds (V := ∅) pl good_noHeap (hu x (by simp)) v _ _ _ (by simp) hsh.sok e1
      obtain ⟨h1, h2, h3, h4⟩ := load_spec (st := ⟨st.chart, s', st.inited⟩) pl (fun y hy => hu y (by simp [hy]))
        ⟨o1, hsh.wf, hsh.user, fun r hr n hn => (hsh.below r hr n hn).trans_le k1⟩ e
      refine ⟨h1, h2, h3, fun z => ?_⟩
      rw [h4, d1]
      simp only [den, List.map_cons, List.sum_cons]
      rw [show res noHeap = Tm.var from Unfold.res_noHeap, sub_id, add_assoc]
    · rename_i s' sig hne e1
      simp only [Option.some.injEq, Prod.mk.injEq] at e
      exact (hne e.2).elim

theorem pops_shape (pl : Plain g) (hu : ∀ r ∈ g.rules, UserHead g.ops r.head) (hx : ∀ x y, g.approx x y = true → x = y) {P : Tm → Prop}
    {st st' : St W} (hsh : Shape g st) (h : Relation.ReflTransGen (Pop g P) st st') : Shape g st' ∧ st'.inited = st.inited := by
  induction h with
  | refl => exact ⟨hsh, rfl⟩
  | tail _ hp ih =>
    obtain ⟨f, a, _, _, e⟩ := hp
    obtain ⟨h1, h2, _⟩ := pop_spec pl hu hx ih.1 e
    exact ⟨h1, h2.trans ih.2⟩

theorem chain_spec (pl : Plain g) (hu : ∀ r ∈ g.rules, UserHead g.ops r.head) (hx : ∀ x y, g.approx x y = true → x = y) {P : Tm → Prop}
    {st st' : St W} (hsh : Shape g st) (h : ForwardChaining g P st st') :
    Shape g st' ∧ (∀ j, j < g.rules.length → j ∈ st'.inited) ∧ st'.chg.change = [] ∧
      ((∀ a, UserHead g.ops a → P a → NoDouble g.rules a) → ∀ D, Eqn g D st → Eqn g D st') := by
  obtain ⟨f, st1, h1, h2, h3⟩ := h
  obtain ⟨a1, a2, a3, a4, a5⟩ := initAll_spec pl hu (fun j => by simp) hsh h1
  have hin : ∀ j, j < g.rules.length → j ∈ st1.inited := fun j hj => by simpa using a4 j hj
  obtain ⟨b1, b2⟩ := pops_shape pl hu hx a1 h2
  have hin' : ∀ j, j < g.rules.length → j ∈ st'.inited := fun j hj => b2 ▸ hin j hj
  refine ⟨b1, hin', ?_, fun hd D hD => ?_⟩
  · rcases hc : st'.chg.change with _ | ⟨p, l⟩
    · rfl
    · have := (b1.sok.keys p.1).1 (by simp [hc])
      rw [h3] at this
      simp at this
  · rw [eqn_all hin']
    have h0 := (eqn_all hin).1 (a5 D hD)
    clear hin' b1 b2 h3 h1 a5 a4 a3 a2
    have key : ∀ {st2}, Relation.ReflTransGen (Pop g P) st1 st2 →
        ∀ z, den st2.chart z + den st2.chg.change z = D z + T g.rules (value g.ops st2.chart) z := by
      intro st2 h
      induction h with
      | refl => exact h0
      | tail hab hp ih =>
        obtain ⟨f, a, hP, _, e⟩ := hp
        have hs := (pops_shape pl hu hx a1 hab).1
        exact pop_eqn pl hu hx hs e (hd a (pop_spec pl hu hx hs e).2.2.1 hP) ih
    exact key h2

theorem runs_spec (pl : Plain g) (hu : ∀ r ∈ g.rules, UserHead g.ops r.head) (hx : ∀ x y, g.approx x y = true → x = y) {P : Tm → Prop}
    (hd : ∀ a, UserHead g.ops a → P a → NoDouble g.rules a) {D : GTm → W} {st : St W} (h : Runs g P D st) : Shape g st ∧ Eqn g D st := by
  induction h with
  | start hk =>
    refine ⟨⟨⟨List.nodup_nil, fun x => by simp [St.empty], by simp [St.empty], by simp [St.empty]⟩, List.nodup_nil, by simp [St.empty], hk⟩, fun z => ?_⟩
    simp [St.empty, den]
  | load _ hud e ih =>
    obtain ⟨h1, h2, h3, h4⟩ := load_spec pl hud ih.1 e
    refine ⟨h1, fun z => ?_⟩
    rw [h2, h3, h4, ← add_assoc, ih.2 z]
    ring
  | chain _ hc ih =>
    obtain ⟨h1, _, _, h4⟩ := chain_spec pl hu hx ih.1 hc
    exact ⟨h1, h4 hd _ ih.2⟩

/-! ### Property C39 -/

/-- **C39 (equations).**  When forward chaining ends, the chart - every item standing for all its ground instances -
solves the equations of the program: the value of a ground item is its data plus the sum, over all ground instances
of rules with this head, of the products of the values of their bodies.  This holds for programs whose rules have no
ground instance with two subgoals matched by one popped item. -/
theorem C39_equations (pl : Plain g) (hu : ∀ r ∈ g.rules, UserHead g.ops r.head) (hx : ∀ x y, g.approx x y = true → x = y) {P : Tm → Prop}
    (hd : ∀ a, UserHead g.ops a → P a → NoDouble g.rules a) {D : GTm → W} {st st' : St W} (h : Runs g P D st)
    (hc : ForwardChaining g P st st') (z : GTm) (hz : bval (W := W) g.ops z.1 = none) :
    value g.ops st'.chart z = D z + T g.rules (value g.ops st'.chart) z := by
  obtain ⟨h1, h2⟩ := runs_spec pl hu hx hd h
  obtain ⟨_, c2, c3, c4⟩ := chain_spec pl hu hx h1 hc
  have := (eqn_all c2).1 (c4 hd D h2) z
  rw [c3] at this
  rw [← this]
  simp [value, hz, den]

end

section
variable {W : Type} [OSemi W] {g : Cfg W}

theorem value_le {ops : Ops} {d : Dict Tm W} {w : GTm → W} (hb : ∀ z b, bval ops z.1 = some b → w z = b) (h : ∀ z, den d z ≤ w z) (z : GTm) :
    value ops d z ≤ w z := by
  unfold value
  cases hz : bval (W := W) ops z.1 with
  | none => exact h z
  | some b => rw [hb z b hz]; exact le_refl _

/-- **C39 (least solution).**  Nothing is counted that is not there: the chart is below everything that satisfies the
equations (even if only as inequations). -/
theorem C39_least (pl : Plain g) (hu : ∀ r ∈ g.rules, UserHead g.ops r.head) (hx : ∀ x y, g.approx x y = true → x = y) {P : Tm → Prop}
    (hd : ∀ a, UserHead g.ops a → P a → NoDouble g.rules a) {D : GTm → W} {st : St W} (h : Runs g P D st)
    {w : GTm → W} (hb : ∀ z b, bval g.ops z.1 = some b → w z = b) (hw : ∀ z, bval (W := W) g.ops z.1 = none → D z + T g.rules w z ≤ w z) (z : GTm) :
    value g.ops st.chart z ≤ w z := by
  have le_add : ∀ a b : W, a ≤ a + b := fun a b => by
    have := OSemi.add_le (le_refl a) (OSemi.zero_le' b); rwa [add_zero] at this
  suffices hmain : (∀ z, bval (W := W) g.ops z.1 = none → D z + T g.rules w z ≤ w z) → ∀ z, den st.chart z ≤ w z from value_le hb (hmain hw) z
  clear hw z
  induction h with
  | start hk => intro _ z; simp only [St.empty, den, List.map_nil, List.sum_nil]; exact OSemi.zero_le' _
  | load hr hud e ih =>
    intro hw z
    obtain ⟨_, h2, _⟩ := load_spec pl hud (runs_spec pl hu hx hd hr).1 e
    rw [h2]
    refine ih (fun z hz => le_trans (OSemi.add_le ?_ (le_refl _)) (hw z hz)) z
    exact le_add _ _
  | @chain D' st0 st0' hr hc ih =>
    intro hw
    have hw' := ih hw
    obtain ⟨hsh, heq⟩ := runs_spec pl hu hx hd hr
    obtain ⟨f, st1, h1, h2, _⟩ := hc
    obtain ⟨a1, a2, a3, a4, a5⟩ := initAll_spec pl hu (fun j => by simp) hsh h1
    have hin : ∀ j, j < g.rules.length → j ∈ st1.inited := fun j hj => by simpa using a4 j hj
    have h0 := (eqn_all hin).1 (a5 _ heq)
    have key : ∀ {st2}, Relation.ReflTransGen (Pop g P) st1 st2 → (∀ z, den st2.chart z ≤ w z) ∧
        ∀ z, den st2.chart z + den st2.chg.change z = D' z + T g.rules (value g.ops st2.chart) z := by
      intro st2 h
      induction h with
      | refl => exact ⟨fun z => by rw [a2]; exact hw' z, h0⟩
      | @tail st2 st3 hab hp ih =>
        obtain ⟨f, a, hP, _, e⟩ := hp
        have hs := (pops_shape pl hu hx a1 hab).1
        obtain ⟨p1, _, p3, Δ, p4, p5, p6, p7, _⟩ := pop_spec pl hu hx hs e
        refine ⟨fun z => ?_, pop_eqn pl hu hx hs e (hd a p3 hP) ih.2⟩
        cases hz : bval (W := W) g.ops z.1 with
        | some b => rw [den_builtin p1.user hz]; exact OSemi.zero_le' _
        | none =>
          refine le_trans ?_ (hw z hz)
          refine le_trans ?_ (OSemi.add_le (le_refl _) (T_mono (value_le hb ih.1) _ z))
          rw [← ih.2 z, p6, p5]
          refine OSemi.add_le (le_refl _) ?_
          rw [add_comm]
          exact le_add _ _
    exact (key h2).1

end

section
variable [CSemi W] {g : Cfg W}

/-- **C39 (calls).**  A call keeps the reachable states: its data program is solved by a solver of its own, whose chart
is added to the data. -/
theorem C39_call (pl : Plain g) (hx : ∀ x y, g.approx x y = true → x = y) {data : List (WRule W)} (hdu : ∀ r ∈ data, UserHead g.ops r.head)
    {P Q : Tm → Prop} {D : GTm → W} {d st st' : St W} (h : Runs g P D st) (hc : Call g data P Q d st st') :
    ∃ st1, Runs g P (fun z => D z + den d.chart z) st1 ∧ ForwardChaining g P st1 st' ∧
      Runs g P (fun z => D z + den d.chart z) st' ∧
      ((∀ a, UserHead g.ops a → Q a → NoDouble data a) → ∀ z, bval (W := W) g.ops z.1 = none → den d.chart z = T data (value g.ops d.chart) z) := by
  obtain ⟨k, f, st1, h1, h2, h3, h4⟩ := hc
  have pl' : Plain { g with rules := data, prio := none } := ⟨by simp [prioOf], pl.inf, pl.cv, pl.eq⟩
  have hsh : Shape { g with rules := data, prio := none } (St.empty k) :=
    ⟨⟨List.nodup_nil, fun x => by simp [St.empty], by simp [St.empty], by simp [St.empty]⟩, List.nodup_nil, by simp [St.empty],
      fun r hr n hn => h1 r hr n (by rw [bodyVs_eq]; exact hn)⟩
  have hd := chain_spec pl' hdu hx hsh h2
  have hl := Runs.load h hd.1.user h3
  refine ⟨st1, hl, h4, hl.chain h4, fun hQ z hz => ?_⟩
  have hr : Runs { g with rules := data, prio := none } Q (fun _ => 0) (St.empty k) := .start fun r hr n hn => h1 r hr n (by rw [bodyVs_eq]; exact hn)
  have := C39_equations pl' hdu hx hQ hr h2 z hz
  simpa [value, hz] using this

/-- functor and number of arguments -/
def fsig : Tm → Option (Tm × Nat)
  | .app (f :: as) => some (f, as.length)
  | _ => none

omit [CSemi W] in
/-- **C39 (a static condition).**  Rules whose subgoals have pairwise different functors (or numbers of arguments) never
count twice, whatever is popped. -/
theorem C39_distinct {rules : List (WRule W)} {ops : Ops} (h : ∀ r ∈ rules, ∀ (i j : Nat) (p q : Tm), i ≠ j → r.body[i]? = some (.sub p) →
    r.body[j]? = some (.sub q) → ∃ c c' as as', p = .app (.con c :: as) ∧ q = .app (.con c' :: as') ∧ (c ≠ c' ∨ as.length ≠ as'.length)) :
    ∀ a, UserHead ops a → NoDouble rules a := by
  rintro _ ⟨c0, as0, rfl, _, _⟩ r hr i j p q hij hi hj θ ⟨⟨θ1, h1⟩, ⟨θ2, h2⟩⟩
  obtain ⟨c, c', as, as', rfl, rfl, hne⟩ := h r hr i j p q hij hi hj
  have h1 := congrArg Subtype.val h1
  have h2 := congrArg Subtype.val h2
  simp only [gsub, sub_app, List.map_cons, sub_con, Tm.app.injEq, List.cons.injEq, Tm.con.injEq] at h1 h2
  have l1 := congrArg List.length h1.2
  have l2 := congrArg List.length h2.2
  simp only [List.length_map] at l1 l2
  rcases hne with hne | hne
  · exact hne (h1.1.symm.trans h2.1)
  · exact hne (l1.symm.trans l2)

omit [CSemi W] in
/-- **C39 (ground items).**  Ground items are never counted twice if no two subgoals of a rule unify - which is what
`linearize` is there for. -/
theorem C39_ground {rules : List (WRule W)} (h : ∀ r ∈ rules, ∀ (i j : Nat) (p q : Tm), i ≠ j → r.body[i]? = some (.sub p) →
    r.body[j]? = some (.sub q) → ∀ σ, p.sub σ ≠ q.sub σ) : ∀ a, Ground a → NoDouble rules a := by
  rintro a ha r hr i j p q hij hi hj θ ⟨⟨θ1, h1⟩, ⟨θ2, h2⟩⟩
  apply h r hr i j p q hij hi hj fun n => (θ n).1
  have h1 := congrArg Subtype.val h1
  have h2 := congrArg Subtype.val h2
  simp only [gsub] at h1 h2
  rw [← h1, ← h2, Unfold.sub_closed ha, Unfold.sub_closed ha]

end

section Examples
open Unfold (at')

/-- pop the first item of the agenda until it is empty -/
def drain [Semiring W] (g : Cfg W) (f : Nat) : Nat → St W → Option (St W)
  | 0, _ => none
  | n + 1, st => match st.chg.agenda with
    | [] => some st
    | (a, _) :: _ => match popF g f st a with
      | some (st', .done) => drain g f n st'
      | _ => none

theorem drain_pops [Semiring W] {g : Cfg W} {f : Nat} : ∀ {n : Nat} {st st' : St W}, drain g f n st = some st' →
    Relation.ReflTransGen (Pop g fun _ => True) st st' ∧ st'.chg.agenda = []
  | 0, _, _, e => by simp [drain] at e
  | n + 1, st, st', e => by
    rw [drain] at e
    split at e
    · rename_i h
      simp only [Option.some.injEq] at e
      subst e
      exact ⟨.refl, h⟩
    · rename_i a p l h
      split at e
      · rename_i st1 h1
        obtain ⟨h2, h3⟩ := drain_pops e
        exact ⟨h2.head ⟨f, a, trivial, by simp [h, Dict.keys], h1⟩, h3⟩
      · simp at e

def solve [Semiring W] (g : Cfg W) (f k : Nat) : Option (St W) :=
  match initAll g f g.rules 0 (St.empty k) with
  | some (st, .done) => drain g f f st
  | _ => none

theorem solve_chain [Semiring W] {g : Cfg W} {f k : Nat} {st : St W} (e : solve g f k = some st) :
    ForwardChaining g (fun _ => True) (St.empty k) st := by
  unfold solve at e
  split at e
  · rename_i st1 h1
    obtain ⟨h2, h3⟩ := drain_pops e
    exact ⟨f, st1, h1, h2, h3⟩
  · simp at e

theorem solve_chart [Semiring W] [DecidableEq W] {g : Cfg W} {f k : Nat} {d : Dict Tm W}
    (e : (solve g f k).map St.chart = some d) : ∃ st, ForwardChaining g (fun _ => True) (St.empty k) st ∧ st.chart = d := by
  cases h : solve g f k with
  | none => simp [h] at e
  | some st => exact ⟨st, solve_chain h, by simpa [h] using e⟩

/-- `goal(X) += f(X,"1") * f(X,"2").  f(U,V) += 3.` over the natural numbers -/
def twice : Cfg Nat := ⟨[⟨at' "goal" [.var 0], [.sub (at' "f" [.var 0, .con (.str "1")]), .sub (at' "f" [.var 0, .con (.str "2")])]⟩,
  ⟨at' "f" [.var 0, .var 1], [.val 3]⟩], fun _ => none, none, fun x y => x == y, 0, fun i => i⟩

/-- **C39 fails when a nonground item matches two subgoals.**  In `goal(X) += f(X,"1") * f(X,"2")` no two subgoals unify, so
`linearize` leaves the program as it is.  The item `f(U,V)` with value 3 drives both subgoals and looks up itself for the other one:
`goal(X)` gets 18, where the equations of the program say 9. -/
theorem C39_counts_twice :
    (Linearize.linearize 9 (fun _ _ => false) ⟨twice.rules, []⟩ 2 0 none).map (fun o => o.map fun st => decide (st.rules = twice.rules)) = some (some true) ∧
    ∃ st, ForwardChaining twice (fun _ => True) (St.empty 2) st ∧
      ∀ z : GTm, ∀ goal : GTm, goal.1 = at' "goal" [z.1] → value twice.ops st.chart goal = 18 ∧
        ∀ v : Tm → Nat, (∀ a b, v (at' "f" [a, b]) = 3) → (∀ a, v (at' "goal" [a]) = v (at' "f" [a, .con (.str "1")]) * v (at' "f" [a, .con (.str "2")])) →
          v goal.1 = 9 := by
  refine ⟨by decide +kernel, ?_⟩
  obtain ⟨st, h1, h2⟩ := solve_chart (g := twice) (f := 9) (k := 2)
    (d := [(at' "f" [.var 0, .var 1], 3), (at' "goal" [.var 0], 18)]) (by decide +kernel)
  refine ⟨st, h1, fun z goal hg => ⟨?_, fun v hv hv' => by rw [hg, hv', hv, hv]⟩⟩
  have i1 : ¬ Inst (at' "f" [.var 0, .var 1]) goal := by
    rintro ⟨θ, h⟩
    have := congrArg Subtype.val h
    rw [hg] at this
    simp [gsub, at'] at this
  have i2 : Inst (at' "goal" [.var 0]) goal := by
    refine ⟨fun _ => z, Subtype.ext ?_⟩
    rw [hg]
    simp [gsub, at']
  have hb : bval (W := Nat) twice.ops goal.1 = none := by
    rw [hg]
    rfl
  rw [value, hb, h2]
  simp [den, i1, i2]

/-- `path(X,Y) += edge(X,Y).  path(X,Z) += edge(X,Y) * path(Y,Z).  edge(X,"a").` over truth values -/
def paths : Cfg TV := ⟨[⟨at' "path" [.var 0, .var 1], [.sub (at' "edge" [.var 0, .var 1])]⟩,
  ⟨at' "path" [.var 0, .var 2], [.sub (at' "edge" [.var 0, .var 1]), .sub (at' "path" [.var 1, .var 2])]⟩,
  ⟨at' "edge" [.var 0, .con (.str "a")], []⟩], fun _ => none, none, fun x y => x == y, .t, fun i => i⟩

theorem infty_tv : (infty : TV) = .t := by
  rw [infty]
  exact (TV.any_iff _).2 ⟨⟨.con (.str "a"), by simp [Ground]⟩, rfl⟩

theorem paths_plain : Plain paths := ⟨by simp [paths, prioOf], infty_tv.symm, fun _ _ h => h, rfl⟩

theorem paths_user : ∀ r ∈ paths.rules, UserHead paths.ops r.head := by
  intro r hr
  simp only [paths, List.mem_cons, List.not_mem_nil, or_false] at hr
  rcases hr with rfl | rfl | rfl <;> exact ⟨_, _, rfl, by decide, by decide⟩

theorem paths_distinct : ∀ a, UserHead paths.ops a → True → NoDouble paths.rules a := by
  intro a ha _
  refine C39_distinct (fun r hr i j p q hij hi hj => ?_) a ha
  simp only [paths, List.mem_cons, List.not_mem_nil, or_false] at hr
  rcases hr with rfl | rfl | rfl
  · rcases i with _ | i <;> rcases j with _ | j <;> simp at hi hj hij
  · rcases i with _ | _ | i <;> rcases j with _ | _ | j <;> simp at hi hj hij
    · subst hi hj; exact ⟨_, _, _, _, rfl, rfl, Or.inl (by decide)⟩
    · subst hi hj; exact ⟨_, _, _, _, rfl, rfl, Or.inl (by decide)⟩
  · simp at hi

/-- the theorems apply to it: the chart `edge(X,"a")`, `path(X,"a")` is the least solution -/
example : ∃ st, ForwardChaining paths (fun _ => True) (St.empty 3) st ∧
    st.chart = [(at' "edge" [.var 0, .con (.str "a")], .t), (at' "path" [.var 0, .con (.str "a")], .t)] ∧
    (∀ z : GTm, bval (W := TV) paths.ops z.1 = none → value paths.ops st.chart z = 0 + T paths.rules (value paths.ops st.chart) z) ∧
    ∀ w : GTm → TV, (∀ z b, bval paths.ops z.1 = some b → w z = b) → (∀ z, bval (W := TV) paths.ops z.1 = none → 0 + T paths.rules w z ≤ w z) →
      ∀ z, value paths.ops st.chart z ≤ w z := by
  obtain ⟨st, h1, h2⟩ := solve_chart (g := paths) (f := 9) (k := 3)
    (d := [(at' "edge" [.var 0, .con (.str "a")], .t), (at' "path" [.var 0, .con (.str "a")], .t)]) (by decide +kernel)
  have hr : Runs paths (fun _ => True) (fun _ => 0) (St.empty 3) := .start (by
    intro r hr n hn
    simp only [paths, List.mem_cons, List.not_mem_nil, or_false] at hr
    rcases hr with rfl | rfl | rfl <;> revert n <;> decide)
  have hx : ∀ x y, paths.approx x y = true → x = y := by intro x y h; simpa [paths] using h
  exact ⟨st, h1, h2, C39_equations paths_plain paths_user hx paths_distinct hr h1,
    fun w hb hw => C39_least paths_plain paths_user hx paths_distinct (hr.chain h1) hb hw⟩

/-- a rule whose subgoals do not unify, so that ground items are counted once -/
example : ∀ a, Ground a → NoDouble twice.rules a := by
  refine C39_ground fun r hr i j p q hij hi hj σ => ?_
  simp only [twice, List.mem_cons, List.not_mem_nil, or_false] at hr
  rcases hr with rfl | rfl
  · rcases i with _ | _ | i <;> rcases j with _ | _ | j <;> simp at hi hj hij
    · subst hi hj; simp [at']
    · subst hi hj; simp [at']
  · rcases i with _ | i <;> simp at hi

end Examples
end Solver2
end Verif
