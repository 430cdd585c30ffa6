/-
The slash and left-corner transformations preserve the values of the original items (property C54 for
`/repo/dyna/transform/slash.py`, C55 for `/repo/dyna/transform/lct.py`).
-/
import Verif.SlashNodes
import Verif.GradedSem
import Verif.UnfoldThm

set_option linter.unusedSectionVars false
set_option linter.unusedSimpArgs false

namespace Verif
open Tm Heap Sem
open Solver (noHeap)

namespace Slash
open Linearize (Sigs isBuiltin)
open Unfold (contribAt mapRule mapLit Tw)
open Classical
variable {W : Type}

/-! ### Specification -/

/-- What is asked of the program, its declarations and the positions.

`oldR`, `oldI`, `apart`: variables of rules and declarations are not among those allocated later, and the declarations share none
with the rules.  `heads`: no functor is both defined by rules and declared as input.  `unif`: a head that has a common ground
instance with the subgoal at a position unifies with it as written -- a question only if both are in the same rule. -/
structure Setup [CSemi W] (sig : Sigs) (fv cv : Nat → Nat) (rules : List (WRule W)) (inputs : List Tm) (pos : Nat → Option Nat) (k : Nat) : Prop where
  ifv : Function.Injective fv
  icv : Function.Injective cv
  sep : ∀ i j, fv i ≠ cv j
  plain : Prune.Plain sig rules
  named : ∀ i ∈ inputs, Named i
  terms : ∀ t ∈ Prune.terms sig rules inputs, Order.Named t
  oldR : ∀ r ∈ rules, ∀ n ∈ rvars r, ∀ j ≥ k, n ≠ fv j
  oldI : ∀ i ∈ inputs, ∀ n ∈ vars i, (∀ j ≥ k, n ≠ fv j) ∧ ∀ j, n ≠ cv j
  apart : ∀ r ∈ rules, ∀ i ∈ inputs, ∀ n ∈ rvars r, n ∉ vars i
  heads : ∀ r ∈ rules, ∀ i ∈ inputs, sigOf r.head ≠ sigOf i
  unif : ∀ r ∈ rules, ∀ q ∈ usefulList pos rules 0, ∀ y, Inst r.head y → Inst q y → ∃ θ, r.head.sub θ = q.sub θ

/-- the data of the declared inputs and of the builtins, among them `$not_matches(lam(x), y)`; nothing on the new items -/
structure DataOK [CSemi W] (sig : Sigs) (inputs : List Tm) (c : Cfg) (d : GTm → W) : Prop where
  data : Prune.Data sig inputs d
  new : ∀ x, NewItem c x → d x = 0
  nm : ∀ z, d (nmitem c.lam z) = if Inst c.X z then 0 else 1

/-! ### The equations of the new program -/

section
variable [CSemi W] {K : Type} [CSemi K]
variable {lct : Bool} {f : Nat} {sig : Sigs} {fv cv : Nat → Nat} {lam : Const} {rules : List (WRule W)} {inputs : List Tm}
  {pos : Nat → Option Nat} {x : Tm} {k : Nat} {res : Res W}

/-- the equations, for any weights -/
structure Eqs (rules : List (WRule W)) (pos : Nat → Option Nat) (res : Res W) : Prop where
  slot : ∀ r ∈ slots pos rules 0, ∀ L q R, r.2 = some (L, q, R) → r.1.body = L ++ .sub q :: R ∧ isBuiltin res.c.sig q = false ∧
    ((∃ z, Inst res.c.X z ∧ Inst q z) → ∀ z, Inst q z → Inst res.c.X z)
  s : ∀ (K : Type) [CSemi K] (φ : W → K) t V y x, Val φ res.c.ot t res.rules V (sitem res.c.sl y x) =
    (if (res.c.lct = true ∨ Inst res.c.X x) ∧ y = x then t else 0) + t * ((slots pos rules 0).map fun r => ssval φ res.c V r.1 r.2 y x).sum
  o : ∀ (K : Type) [CSemi K] (φ : W → K) t V y, Val φ res.c.ot t res.rules V (oitem res.c.ot y) =
    t * ((slots pos rules 0).map fun r => if Useful res.c r.1.head then gval φ res.c.ot res.c.X (Exo res.c) V r.1 r.2 y else 0).sum
  v : ∀ (K : Type) [CSemi K] (φ : W → K) t V y, ¬ NewItem res.c y → ((∃ s ∈ res.nodes, ¬ Exo res.c s ∧ Inst s y) → NotMatches res.c V y) →
    Val φ res.c.ot t res.rules V y =
    t ^ 3 * ((slots pos rules 0).map fun r => if Useful res.c r.1.head then 0 else gval φ res.c.ot res.c.X (Exo res.c) V r.1 r.2 y).sum +
      (res.nodes.map fun s => nval res.c t res.nodes V s y).sum

/-- facts about the names, the copy of `x` and the nodes -/
structure Facts (sig : Sigs) (fv : Nat → Nat) (rules : List (WRule W)) (inputs : List Tm) (pos : Nat → Option Nat) (x : Tm) (k : Nat) (res : Res W) : Prop where
  sigs : res.c.sig = sig
  ins : res.c.inputs = inputs
  useful : res.c.useful = res.c.X :: usefulList pos rules 0
  X : res.c.X = (freshV fv k x).1
  sl : ∀ r ∈ rules, hfn r.head ≠ some res.c.sl ∧ ∀ t, Lit.sub t ∈ r.body → hfn t ≠ some res.c.sl
  ot : ∀ r ∈ rules, hfn r.head ≠ some res.c.ot ∧ ∀ t, Lit.sub t ∈ r.body → hfn t ≠ some res.c.ot
  slnm : res.c.sl ≠ .str "$not_matches"
  otnm : res.c.ot ≠ .str "$not_matches"
  nodes : ∀ s ∈ res.nodes, SigIn (Prune.terms sig rules inputs) s
  cov : ∀ t ∈ Prune.terms sig rules inputs, ∃ s ∈ res.nodes, InstanceOf t s

theorem mem_terms_head {r : WRule W} (hr : r ∈ rules) : r.head ∈ Prune.terms sig rules inputs := by
  unfold Prune.terms
  rw [List.mem_append, List.mem_flatMap]
  exact .inr ⟨r, hr, by simp⟩

theorem mem_terms_body {r : WRule W} (hr : r ∈ rules) {q : Tm} (hq : Lit.sub q ∈ r.body) (hb : isBuiltin sig q = false) : q ∈ Prune.terms sig rules inputs := by
  unfold Prune.terms
  rw [List.mem_append, List.mem_flatMap]
  exact .inr ⟨r, hr, by simp [Prune.mem_bodyTerms, hq, hb]⟩

theorem mem_terms {t : Tm} (h : t ∈ Prune.terms sig rules inputs) : t ∈ inputs ∨ ∃ r ∈ rules, t = r.head ∨ (Lit.sub t ∈ r.body ∧ isBuiltin sig t = false) := by
  unfold Prune.terms at h
  rw [List.mem_append, List.mem_flatMap] at h
  rcases h with h | ⟨r, hr, h⟩
  · exact .inl h
  · exact .inr ⟨r, hr, by simpa [Prune.mem_bodyTerms] using h⟩

theorem mem_slots {r : WRule W × Slot W} : ∀ {rs : List (WRule W)} {i : Nat}, r ∈ slots pos rs i → r.1 ∈ rs
  | [], i, h => by simp [slots] at h
  | a :: rs, i, h => by
    rw [slots] at h
    rcases List.mem_cons.1 h with rfl | h
    · simp
    · exact List.mem_cons_of_mem _ (mem_slots h)

/-- what a run that ends has produced -/
theorem slash_run (S : Setup sig fv cv rules inputs pos k) (e : slash lct f sig fv cv lam rules inputs pos x k = some res)
    (hI : ∀ i ∈ inputs, hfn i ≠ some res.c.sl ∧ hfn i ≠ some res.c.ot) : Eqs rules pos res ∧ Facts sig fv rules inputs pos x k res ∧ res.c.lct = lct ∧ res.c.fv = fv ∧ res.c.lam = lam := by
  unfold slash at e
  cases h1 : GenFunctor.genLocal (strs rules) "/" f with
  | none => simp [h1] at e
  | some sl =>
  cases h2 : GenFunctor.genLocal (strs rules) "$other" f with
  | none => simp [h1, h2] at e
  | some ot =>
  simp only [h1, h2] at e
  set X := freshV fv k x with hX
  cases h3 : addAll (DisjointEst.add fv cv f) ⟨[], X.2⟩ (Prune.terms sig rules inputs) with
  | none => simp [h3] at e
  | some N =>
  simp only [h3] at e
  set c : Cfg := ⟨lct, sig, inputs, fv, cv, f, lam, .str sl, .str ot, X.1, X.1 :: usefulList pos rules 0⟩ with hc
  set base : St W := (⟨[], N.k + 1⟩ : St W).add fv ⟨if lct then slashT (.str sl) (.var (fv N.k)) (.var (fv N.k)) else slashT (.str sl) X.1 X.1, []⟩ .base with hbase
  cases h4 : ruleLoop c (fv N.k) pos rules 0 base with
  | none => simp [h4] at e
  | some st1 =>
  simp only [h4] at e
  cases h5 : nodeLoop c N.xs N.xs st1 with
  | none => simp [h5] at e
  | some st2 =>
  simp only [h5, Option.some.injEq] at e
  subst e
  have hXk : k ≤ X.2 := (freshV_spec S.ifv k x).2.1
  have hNk : X.2 ≤ N.k := addAll_k S.ifv h3
  have nsl := name_new h1
  have not := name_new h2
  obtain ⟨a, ha⟩ := genLocal_prefix h1
  obtain ⟨b, hb⟩ := genLocal_prefix h2
  have hne : c.sl ≠ c.ot := by
    show Const.str sl ≠ .str ot
    rw [ha, hb]
    intro h
    exact slash_ne_other (Const.str.inj h)
  have hnamed : ∀ t ∈ Prune.terms sig rules inputs, Named t := fun t ht => by
    rcases mem_terms ht with h | ⟨r, hr, rfl | ⟨h, _⟩⟩
    · exact S.named t h
    · exact (S.plain.named r hr).head
    · exact (S.plain.named r hr).body t h
  have hinv := DisjointEst.addAll_inv S.ifv S.icv S.sep _ _ _ [] S.terms ⟨by simp, by simp, by simp⟩ h3
  have hsig : ∀ s ∈ N.xs, SigIn (Prune.terms sig rules inputs) s := addAll_sig S.ifv S.icv (fun t ht => ⟨ht, hnamed t ht⟩) (by simp) h3
  have hold : ∀ {t : Tm}, (∀ n ∈ vars t, ∀ j ≥ k, n ≠ fv j) → Disjoint (vars t) (vars X.1) := fun {t} h => old_disjoint S.ifv h x
  -- a head is not exogenous
  have hexo : ∀ r ∈ rules, ¬ Exo c r.head := by
    rintro r hr (h | ⟨i, hi, y, h1, h2⟩)
    · rw [S.plain.heads r hr] at h; simp at h
    · apply S.heads r hr i hi
      rw [← inst_sig (S.plain.named r hr).head h2, inst_sig (S.named i hi) h1]
  -- the base rule
  obtain ⟨n0, a1, a2, a3, a4⟩ := add_Val S.ifv (⟨[], N.k + 1⟩ : St W) ⟨if lct then slashT (.str sl) (.var (fv N.k)) (.var (fv N.k)) else slashT (.str sl) X.1 X.1, []⟩ .base
  rw [← hbase] at a1 a2
  have a2' : N.k + 1 ≤ base.k := a2
  -- the rules
  obtain ⟨n1, b1, b2, b3, b4⟩ := ruleLoop_spec (c := c) S.ifv hne (fun r hr => ⟨S.plain.named r hr, (nsl r hr).1, (not r hr).1, hexo r hr,
    fun t ht n hn => S.apart r hr t ht n hn, fun n hn h => by
      have : n ∈ vars X.1 := h
      obtain ⟨i, hi, _, rfl⟩ := (freshV_spec S.ifv k x).2.2 n this
      exact S.oldR r hr _ hn i hi rfl, fun h => S.oldR r hr _ h N.k (by omega) rfl⟩)
    (fun q hq => List.mem_cons_of_mem _ hq) h4
  -- the nodes
  have hslot : ∀ q ∈ usefulList pos rules 0, ∃ r ∈ rules, Lit.sub q ∈ r.body := fun q hq => by
    obtain ⟨r, hr, L, R, h⟩ := slots_useful.1 hq
    exact ⟨r.1, mem_slots hr, by rw [(b3 r hr L q R h).1]; simp⟩
  have E : Env c st1.k := ⟨S.ifv, fun i hi n hn j hj => (S.oldI i hi n hn).1 j (by omega), fun i hi => hold fun n hn => (S.oldI i hi n hn).1,
    by simp [hc], fun u hu => by
      have hu : u = X.1 ∨ u ∈ usefulList pos rules 0 := by simpa [hc] using hu
      rcases hu with rfl | hu
      · exact (old_fresh S.ifv k x).mono (show X.2 ≤ _ by omega)
      · obtain ⟨r, hr, hq⟩ := hslot u hu
        intro n hn j hj
        exact S.oldR r hr n (litVars_sub_rvars hq (by simpa [litVars] using hn)) j (by omega)⟩
  obtain ⟨n2, c1, c2⟩ := nodeLoop_spec E (fun s hs => (hsig s hs).named) (fun s hs i hi => by
    rw [Finset.disjoint_left]
    intro n hn hn'
    obtain ⟨j, e⟩ := hinv.canon s hs n hn'
    exact (S.oldI i hi n hn).2 j e) (fun s hs => hs) (le_refl _) h5
  have hout : st2.out = n0 ++ (n1 ++ n2) := by rw [c1, b1, a1]; simp
  -- new items are no instances of nodes that matter
  have hnode : ∀ s ∈ N.xs, ∀ z, Inst s z → hfn z.1 ≠ some c.sl ∧ hfn z.1 ≠ some c.ot := by
    intro s hs z hz
    obtain ⟨t, ht, h6, h7⟩ := hsig s hs
    rw [inst_hfn (sig_named h6 h7) hz, (sigOf_hfn h6 h7).1]
    rcases mem_terms ht with h | ⟨r, hr, rfl | ⟨h, _⟩⟩
    · exact hI t h
    · exact ⟨(nsl r hr).1, (not r hr).1⟩
    · exact ⟨(nsl r hr).2 t h, (not r hr).2 t h⟩
  have hnval : ∀ {K : Type} [CSemi K] (t : K) V z, (hfn z.1 = some c.sl ∨ hfn z.1 = some c.ot) → (N.xs.map fun s => nval c t N.xs V s z).sum = 0 := by
    intro K _ t V z hz
    refine sum_zero_of fun s hs => ?_
    have : ¬ Inst s z := fun h => by have := hnode s hs z h; tauto
    unfold nval rval
    simp [this]
  have hhyp : ∀ {K : Type} [CSemi K] (V : GTm → K) z, (hfn z.1 = some c.sl ∨ hfn z.1 = some c.ot) → ((∃ s ∈ N.xs, ¬ Exo c s ∧ Inst s z) → NotMatches c V z) := by
    rintro K _ V z hz ⟨s, hs, _, h⟩
    have := hnode s hs z h; tauto
  have hbz : ∀ {K : Type} [CSemi K] (φ : W → K) V z, hfn z.1 ≠ some c.sl →
      contrib (mapRule φ (⟨if lct then slashT (.str sl) (.var (fv N.k)) (.var (fv N.k)) else slashT (.str sl) X.1 X.1, []⟩ : WRule W)) V z = 0 := by
    intro K _ φ V z hz
    unfold mapRule
    refine contrib_hfn ?_ ?_
    · dsimp only; split <;> exact named_slashT _ _ _
    · intro h
      apply hz
      rw [← h]
      dsimp only
      split <;> rfl
  refine ⟨⟨b3, ?_, ?_, ?_⟩, ⟨rfl, rfl, rfl, rfl, nsl, not, ?_, ?_, hsig, ?_⟩, rfl, rfl, rfl⟩
  · intro K _ φ t V y z
    show Val φ c.ot t st2.out V (sitem c.sl y z) = _
    rw [hout, Val_append, Val_append, a4, (b4 K φ t V).1, c2 K φ t V _ (hhyp V _ (.inl (hfn_sitem _ _ _))), hnval t V _ (.inl (hfn_sitem _ _ _)), add_zero]
    refine congrArg₂ (· + ·) ?_ rfl
    show t * _ = _
    have hb : contrib (mapRule φ (⟨if lct then slashT (.str sl) (.var (fv N.k)) (.var (fv N.k)) else slashT (.str sl) X.1 X.1, []⟩ : WRule W)) V (sitem c.sl y z) =
        if (lct = true ∨ Inst X.1 z) ∧ y = z then 1 else 0 := by
      unfold mapRule
      cases lct with
      | true =>
        have := contrib_base (K := K) (.str sl) (.var (fv N.k)) V y z
        simp only [inst_var, true_and] at this
        simpa using this
      | false =>
        have := contrib_base (K := K) (.str sl) X.1 V y z
        simpa using this
    rw [hb, mul_ite, mul_one, mul_zero]
  · intro K _ φ t V y
    show Val φ c.ot t st2.out V (oitem c.ot y) = _
    rw [hout, Val_append, Val_append, a4, (b4 K φ t V).2.1, c2 K φ t V _ (hhyp V _ (.inr (hfn_oitem _ _))), hnval t V _ (.inr (hfn_oitem _ _)), add_zero,
      hbz φ V _ (by rw [hfn_oitem]; simpa using hne.symm), mul_zero, zero_add]
  · intro K _ φ t V y hy hnm
    show Val φ c.ot t st2.out V y = _
    rw [hout, Val_append, Val_append, a4, (b4 K φ t V).2.2 y hy, c2 K φ t V _ hnm, hbz φ V _ (fun h => hy (.inl h)), mul_zero, zero_add]
  · show Const.str sl ≠ _
    rw [ha]; intro h; exact slash_ne_nm (Const.str.inj h)
  · show Const.str ot ≠ _
    rw [hb]; intro h; exact other_ne_nm (Const.str.inj h)
  · intro t ht
    exact hinv.cov t (by simpa using ht)

/-! ### From the equations to the original program -/

theorem gval_none {φ : W → K} {ot : Const} {X : Tm} {exo : Tm → Prop} {V : GTm → K} {r : WRule W} {s : Slot W} {y : GTm} (h : ¬ Inst r.head y) :
    gval φ ot X exo V r s y = 0 := by
  unfold gval
  split
  · exact contrib_zero fun θ e => h ⟨θ, e⟩
  · split
    · rfl
    · exact contribAt_no_head h

/-- what is needed of values that solve the equations of the new program with weights -/
structure Vals (res : Res W) (φ : W → K) (t : K) (V dd : GTm → K) : Prop where
  eq : ∀ z, V z = dd z + Val φ res.c.ot t res.rules V z
  new : ∀ z, NewItem res.c z → dd z = 0
  data : ∀ z, isBuiltin res.c.sig z.1 = false → (∀ i ∈ res.c.inputs, ¬ Inst i z) → dd z = 0
  nm : ∀ z, dd (nmitem res.c.lam z) = if Inst res.c.X z then 0 else 1

theorem alg_of (S : Setup sig fv cv rules inputs pos k) (E : Eqs rules pos res) (F : Facts sig fv rules inputs pos x k res)
    (hap : Apart res.nodes) (hb : sig (.str "$not_matches") 2 = true) {φ : W → K} {t : K} {V dd : GTm → K} (H : Vals res φ t V dd)
    (hS : ∀ y x, Inst res.c.X x → V (sitem res.c.sl y x) = (if y = x then t else 0) +
      t * ((slots pos rules 0).map fun r => sval φ V r.1 r.2 (fun z => V (sitem res.c.sl z x)) y).sum) :
    Alg φ t (slots pos rules 0) res.nodes res.c.sl res.c.ot res.c.X V dd (fun r => Useful res.c r.head) (UsefulN res.c) (Exo res.c) (ExoH res.c) (NewItem res.c) := by
  have hrule : ∀ {r}, r ∈ slots pos rules 0 → r.1 ∈ rules := fun h => mem_slots h
  have hnb : ∀ z, isBuiltin sig (nmitem res.c.lam z).1 = true := fun z => hb
  have hhn : ∀ r ∈ rules, Named r.head := fun r hr => (S.plain.named r hr).head
  -- subgoals at positions
  have hq : ∀ r ∈ slots pos rules 0, ∀ L q R, r.2 = some (L, q, R) → Lit.sub q ∈ r.1.body ∧ isBuiltin sig q = false ∧ Named q := fun r hr L q R h => by
    obtain ⟨h1, h2, _⟩ := E.slot r hr L q R h
    have : Lit.sub q ∈ r.1.body := by rw [h1]; simp
    exact ⟨this, by rw [← F.sigs]; exact h2, (S.plain.named _ (hrule hr)).body q this⟩
  -- nodes around an instance of a head
  have hnode : ∀ r ∈ rules, ∀ y, Inst r.head y → ∀ s ∈ res.nodes, Inst s y → ¬ Exo res.c s := by
    rintro r hr y hy s hs hsy h
    have h1 : sigOf s = sigOf r.head := by rw [← inst_sig (F.nodes s hs).named hsy, inst_sig (hhn r hr) hy]
    rcases h with h | ⟨i, hi, z, h2, h3⟩
    · rw [F.sigs, sigOf_builtin (hhn r hr) h1, S.plain.heads r hr] at h; simp at h
    · rw [F.ins] at hi
      apply S.heads r hr i hi
      rw [← h1, ← inst_sig (F.nodes s hs).named h3, inst_sig (S.named i hi) h2]
  have hexoH : ∀ s, ¬ Exo res.c s → ¬ ExoH res.c s := by
    rintro s h (h' | ⟨i, hi, z, h1, h2, h3⟩)
    · exact h (.inl h')
    · exact h (.inr ⟨i, hi, z, h1, h3⟩)
  have hcovH : ∀ r ∈ rules, ∃ s ∈ res.nodes, InstanceOf r.head s := fun r hr => F.cov _ (mem_terms_head hr)
  -- `$not_matches`
  have hnmN : ∀ z, ¬ NewItem res.c (nmitem res.c.lam z) := by
    rintro z (h | h)
    · exact F.slnm (by have : some (Const.str "$not_matches") = some res.c.sl := h; simpa using this.symm)
    · exact F.otnm (by have : some (Const.str "$not_matches") = some res.c.ot := h; simpa using this.symm)
  have hnmS : ∀ z, ∀ s ∈ res.nodes, ¬ Exo res.c s → ¬ Inst s (nmitem res.c.lam z) := fun z s hs he hi => he (.inl (by
    rw [F.sigs, ← inst_builtin (F.nodes s hs).named hi]; exact hnb z))
  have hnm : ∀ z, NotMatches res.c V z := fun z => by
    unfold NotMatches
    rw [← H.nm z]
    conv_lhs => rw [H.eq, E.v K φ t V _ (hnmN z) (fun ⟨s, hs, he, hi⟩ => absurd hi (hnmS z s hs he))]
    rw [sum_zero_of, sum_zero_of]
    · simp
    · intro s hs
      unfold nval
      split
      · rfl
      · rename_i he
        have := hnmS z s hs he
        unfold rval
        rw [if_neg (by tauto), zero_add]
        exact sum_zero_of fun s' _ => by rw [if_neg this, mul_zero]
    · intro r hr
      have : ¬ Inst r.1.head (nmitem res.c.lam z) := fun hi => by
        have := S.plain.heads _ (hrule hr)
        rw [← inst_builtin (hhn _ (hrule hr)) hi, hnb] at this
        simp at this
      rw [gval_none this]; simp
  refine ⟨fun r hr L q R h => (E.slot r hr L q R h).1, hS, ?_, ?_, hap, ?_, ?_, ?_, ?_, ?_, ?_, ?_, ?_, fun s _ h => hexoH s h, ?_, ?_, ?_, ?_⟩
  · intro y
    rw [H.eq, H.new _ (.inr (hfn_oitem _ _)), zero_add, E.o]
  · intro y hy
    conv_lhs => rw [H.eq, E.v K φ t V y hy fun _ => hnm y]
    rfl
  · rintro r hr y hy (h | h)
    · exact (F.sl _ (hrule hr)).1 (by rw [← inst_hfn (hhn _ (hrule hr)) hy, h])
    · exact (F.ot _ (hrule hr)).1 (by rw [← inst_hfn (hhn _ (hrule hr)) hy, h])
  · intro r hr L q R h y hy
    obtain ⟨h1, h2, h3⟩ := hq r hr L q R h
    rintro (h | h)
    · exact (F.sl _ (hrule hr)).2 q h1 (by rw [← inst_hfn h3 hy, h])
    · exact (F.ot _ (hrule hr)).2 q h1 (by rw [← inst_hfn h3 hy, h])
  · -- f1
    intro r hr y hy hX
    refine ⟨res.c.X, by rw [F.useful]; simp, unify_of_meet ?_ hy hX⟩
    rw [F.X]
    exact old_disjoint S.ifv (fun n hn => S.oldR _ (hrule hr) n (by simp [rvars, hn])) x
  · -- f2
    intro r hr y hy r' hr' L q R h hqy
    have hu : q ∈ usefulList pos rules 0 := slots_useful.2 ⟨r', hr', L, R, h⟩
    exact ⟨q, by rw [F.useful]; simp [hu], S.unif _ (hrule hr) q hu y hy hqy⟩
  · -- f3
    rintro r hr y hy ⟨u, hu, θ, h⟩ s hs hsy
    obtain ⟨s0, hs0, h0⟩ := hcovH _ (hrule hr)
    have := hap.eq hs hs0 hsy (inst_of_instanceOf h0 hy)
    subst this
    obtain ⟨z, h1, h2⟩ := meet_of_unify h
    exact ⟨u, hu, z, inst_of_instanceOf h0 h1, h2⟩
  · -- f4
    intro r hr y hy
    obtain ⟨s0, hs0, h0⟩ := hcovH _ (hrule hr)
    have h1 := inst_of_instanceOf h0 hy
    exact ⟨s0, hs0, h1, hnode _ (hrule hr) y hy s0 hs0 h1⟩
  · -- f6
    intro r hr y hy s hs hsy
    exact hexoH s (hnode _ (hrule hr) y hy s hs hsy)
  · -- f7
    intro s hs he z hsz hXz
    refine H.data z ?_ fun i hi h => he (.inr ⟨i, hi, z, h, hXz, hsz⟩)
    rw [inst_builtin (F.nodes s hs).named hsz]
    cases hb' : isBuiltin res.c.sig s with
    | false => rfl
    | true => exact absurd (.inl hb') he
  · -- f8
    intro r hr L q R h he z hz
    obtain ⟨h1, h2, h3⟩ := hq r hr L q R h
    refine H.data z ?_ fun i hi h => he (.inr ⟨i, hi, z, h, hz⟩)
    rw [F.sigs, inst_builtin h3 hz, h2]
  · -- f9
    intro r hr L q R h he z hz r' hr' hh
    obtain ⟨h1, h2, h3⟩ := hq r hr L q R h
    rcases he with he | ⟨i, hi, w, h4, h5⟩
    · rw [F.sigs, h2] at he; simp at he
    · rw [F.ins] at hi
      apply S.heads _ (hrule hr') i hi
      rw [← inst_sig (hhn _ (hrule hr')) hh, inst_sig h3 hz, ← inst_sig h3 h5, inst_sig (S.named i hi) h4]
  · -- f10
    intro r hr L q R h z hz
    obtain ⟨h1, h2, h3⟩ := hq r hr L q R h
    obtain ⟨s, hs, h4⟩ := F.cov q (mem_terms_body (hrule hr) h1 h2)
    exact ⟨s, hs, inst_of_instanceOf h4 hz⟩
  · -- f11
    intro r hr L q R h
    exact (E.slot r hr L q R h).2.2

theorem avoids_new (S : Setup sig fv cv rules inputs pos k) (F : Facts sig fv rules inputs pos x k res) :
    ∀ r ∈ rules, Avoids (NewItem res.c) r.head ∧ ∀ t, Lit.sub t ∈ r.body → Avoids (NewItem res.c) t := by
  intro r hr
  constructor
  · rintro θ (h | h)
    · exact (F.sl r hr).1 (by rw [← hfn_gsub (S.plain.named r hr).head θ, h])
    · exact (F.ot r hr).1 (by rw [← hfn_gsub (S.plain.named r hr).head θ, h])
  · rintro t ht θ (h | h)
    · exact (F.sl r hr).2 t ht (by rw [← hfn_gsub ((S.plain.named r hr).body t ht) θ, h])
    · exact (F.ot r hr).2 t ht (by rw [← hfn_gsub ((S.plain.named r hr).body t ht) θ, h])

/-- the equations of the original program -/
theorem original (S : Setup sig fv cv rules inputs pos k) (E : Eqs rules pos res) (F : Facts sig fv rules inputs pos x k res)
    (hap : Apart res.nodes) (hb : sig (.str "$not_matches") 2 = true) {φ : W → K} {t : K} {V dd : GTm → K} (H : Vals res φ t V dd)
    (hS : ∀ y x, Inst res.c.X x → V (sitem res.c.sl y x) = (if y = x then t else 0) +
      t * ((slots pos rules 0).map fun r => sval φ V r.1 r.2 (fun z => V (sitem res.c.sl z x)) y).sum) (y : GTm) :
    off (NewItem res.c) V y = dd y + ((slots pos rules 0).map fun r => pw t (Exo res.c) r.2 * contrib (mapRule φ r.1) (off (NewItem res.c) V) y).sum := by
  have hav := avoids_new S F
  have hcon : ∀ r ∈ slots pos rules 0, contrib (mapRule φ r.1) (off (NewItem res.c) V) y = contrib (mapRule φ r.1) V y := fun r hr =>
    contrib_blind (N := NewItem res.c) (fun t ht => by
      have : Lit.sub t ∈ r.1.body := by
        simp only [mapRule, List.mem_map] at ht
        obtain ⟨l, hl, h⟩ := ht
        cases l with
        | val w => simp [mapLit] at h
        | sub u => simp [mapLit] at h; rwa [← h]
      exact (hav _ (mem_slots hr)).2 t this) (fun z hz => by simp [off, hz]) y
  rw [sum_congr fun r hr => congrArg (pw t (Exo res.c) r.2 * ·) (hcon r hr)]
  by_cases hy : NewItem res.c y
  · rw [H.new y hy, sum_zero_of]
    · simp [off, hy]
    · intro r hr
      rw [contrib_zero fun θ e => (hav _ (mem_slots hr)).1 θ (by
        have : gsub θ r.1.head = y := e
        rwa [this]), mul_zero]
  · have := (alg_of S E F hap hb H hS).main y hy
    simp only [off, if_neg hy]
    exact this

/-- the equation of the slashed items -/
theorem slash_items (E : Eqs rules pos res) (hl : res.c.lct = false) {φ : W → K} {t : K} {V dd : GTm → K} (H : Vals res φ t V dd) (y z : GTm) (hz : Inst res.c.X z) :
    V (sitem res.c.sl y z) = (if y = z then t else 0) + t * ((slots pos rules 0).map fun r => sval φ V r.1 r.2 (fun w => V (sitem res.c.sl w z)) y).sum := by
  conv_lhs => rw [H.eq, H.new _ (.inl (hfn_sitem _ _ _)), zero_add, E.s]
  simp only [hz, or_true, true_and, ssval, hl, Bool.false_eq_true, if_false, if_true]

end

/-! ### Turning the spine around -/

section
open Gr
variable [CSemi W]

theorem isum_diag {K : Type} [CSemi K] (x : GTm) (t : K) (u : GTm → K) : isum (fun w => u w * if w = x then t else 0) = u x * t := by
  rw [← isum_single x (fun w => u w * t)]
  exact isum_congr fun w => by split <;> simp

/-- approximations of the values of the slashed items -/
noncomputable def spine (A : GTm → GTm → Gr W) : Nat → GTm → GTm → Gr W
  | 0 => fun _ _ => 0
  | n + 1 => fun y x => (if y = x then mono 1 else 0) + mono 1 * isum fun w => A y w * spine A n w x

theorem spine_flip (A : GTm → GTm → Gr W) (n : Nat) : ∀ y x, spine A (n + 1) y x = (if y = x then mono 1 else 0) + mono 1 * isum fun w => A w x * spine A n y w := by
  induction n with
  | zero =>
    intro y x
    simp only [spine, mul_zero, isum_zero]
  | succ n ih =>
    intro y x
    have e1 : spine A (n + 2) y x = (if y = x then mono 1 else 0) + mono 1 * isum fun w => A y w * spine A (n + 1) w x := rfl
    rw [e1, isum_congr fun w => congrArg (A y w * ·) (ih w x)]
    have e2 : ∀ w, spine A (n + 1) y w = (if y = w then mono 1 else 0) + mono 1 * isum fun v => A y v * spine A n v w := fun w => rfl
    rw [isum_congr fun w => congrArg (A w x * ·) (e2 w)]
    congr 2
    simp only [mul_add]
    rw [isum_add, isum_add, isum_diag]
    congr 1
    · have : ∀ w, (A w x * if y = w then (mono 1 : Gr W) else 0) = A w x * if w = y then mono 1 else 0 := fun w => by simp only [eq_comm]
      rw [isum_congr this, isum_diag]
    · have a1 : ∀ w, A y w * (mono 1 * isum fun v => A v x * spine A n w v) = isum fun v => mono 1 * (A y w * (A v x * spine A n w v)) := fun w => by
        rw [← mul_isum, ← mul_isum]; ring
      have a2 : ∀ w, A w x * (mono 1 * isum fun v => A y v * spine A n v w) = isum fun v => mono 1 * (A w x * (A y v * spine A n v w)) := fun w => by
        rw [← mul_isum, ← mul_isum]; ring
      rw [isum_congr a1, isum_congr a2, isum_comm]
      exact isum_congr fun v => isum_congr fun w => by ring

theorem spine_supp {A : GTm → GTm → Gr W} (hA : ∀ y x, Supp 0 (A y x)) (n : Nat) : ∀ y x, Supp 0 (spine A n y x) := by
  induction n with
  | zero => intro y x; exact supp_zero _
  | succ n ih =>
    intro y x
    refine Supp.add ?_ ?_
    · split
      · exact (supp_at 1 1).le (by norm_num)
      · exact supp_zero _
    · have : Supp (1 + 0) (mono 1 * isum fun w => A y w * spine A n w x) := Supp.mul (supp_at 1 1) (supp_isum fun w => by
        simpa using (hA y w).mul (ih w x))
      exact this.le (by norm_num)

/-- a solution of the equations that extend the spine at one end solves those that extend it at the other -/
theorem flip {A Lm : GTm → GTm → Gr W} (hA : ∀ y x, Supp 0 (A y x)) (hL : ∀ y x, Supp 0 (Lm y x))
    (h : ∀ y x, Lm y x = (if y = x then mono 1 else 0) + mono 1 * isum fun w => A w x * Lm y w) (y x : GTm) :
    Lm y x = (if y = x then mono 1 else 0) + mono 1 * isum fun w => A y w * Lm w x := by
  have step : ∀ (n : ℤ) (a b c d : Gr W), Agree n a b → a = c → b = d → Agree n c d := by rintro n a b _ _ h rfl rfl; exact h
  have hadd : ∀ (n : ℤ) (a b c : Gr W), Agree n b c → Agree n (a + b) (a + c) := fun n a b c h k hk => by rw [add_def, add_def, h k hk]
  have key : ∀ n : Nat, ∀ y x, Agree ((n : ℤ) - 1) (spine A n y x) (Lm y x) := by
    intro n
    induction n with
    | zero => intro y x k hk; rw [hL y x k (by push_cast at hk; omega)]; rfl
    | succ n ih =>
      intro y x
      rw [spine_flip, h y x]
      have := agree_mono (k := 1) (by norm_num) (agree_isum fun w => (Agree.refl ((n : ℤ) - 1) (A w x)).mul (ih y w) (hA w x) (hA w x) (spine_supp hA n y w) (hL y w))
      refine hadd _ _ _ _ ?_
      have e : ((n + 1 : Nat) : ℤ) - 1 = (n : ℤ) - 1 + 1 := by push_cast; ring
      rw [e]; exact this
  ext k
  set n := k.toNat + 1 with hn
  have h1 := key (n + 1) y x k (by push_cast; omega)
  have h2 := agree_mono (k := 1) (by norm_num) (agree_isum fun w => (Agree.refl ((n : ℤ) - 1) (A y w)).mul (key n w x) (hA y w) (hA y w) (spine_supp hA n w x) (hL w x))
  have h3 := hadd _ (if y = x then mono 1 else 0) _ _ h2 k (by omega)
  rw [← h1]
  exact h3

/-- the equation of the items `y/x` of the left-corner transformation, turned around -/
theorem lct_items {rules : List (WRule W)} {pos : Nat → Option Nat} {res : Res W} (E : Eqs rules pos res) (hl : res.c.lct = true) {V dd : GTm → Gr W}
    (H : Vals res lift (mono 1) V dd) (hV : ∀ x, Supp 0 (V x)) (y z : GTm) :
    V (sitem res.c.sl y z) = (if y = z then mono 1 else 0) +
      mono 1 * ((slots pos rules 0).map fun r => sval lift V r.1 r.2 (fun w => V (sitem res.c.sl w z)) y).sum := by
  -- one step of the spine
  let cf : WRule W × Slot W → GTm → GTm → Gr W := fun r y x => match r.2 with
    | none => 0
    | some (L, q, R) => coef r.1.head (L.map (mapLit lift)) q (R.map (mapLit lift)) V y x
  let A : GTm → GTm → Gr W := fun y x => ((slots pos rules 0).map fun r => cf r y x).sum
  have hA : ∀ y x, Supp 0 (A y x) := fun y x => supp_sum fun B hB => by
    obtain ⟨r, _, rfl⟩ := List.mem_map.1 hB
    obtain ⟨r, s⟩ := r
    cases s with
    | none => exact supp_zero _
    | some s =>
      obtain ⟨L, q, R⟩ := s
      show Supp 0 (coef r.head (L.map (mapLit lift)) q (R.map (mapLit lift)) V y x)
      unfold coef
      refine supp_isum fun a => ?_
      split
      · split
        · have := (gbv_supp0 hV (ext a) L).mul (gbv_supp0 hV (ext a) R)
          simpa [gbv] using this
        · exact supp_zero _
      · exact supp_zero _
  have h1 : ∀ y x, V (sitem res.c.sl y x) = (if y = x then mono 1 else 0) + mono 1 * isum fun w => A w x * V (sitem res.c.sl y w) := by
    intro y x
    conv_lhs => rw [H.eq, H.new _ (.inl (hfn_sitem _ _ _)), zero_add, E.s]
    simp only [hl, true_or, true_and]
    congr 2
    have : ∀ w, A w x * V (sitem res.c.sl y w) = ((slots pos rules 0).map fun r => cf r w x * V (sitem res.c.sl y w)).sum := fun w => by
      show ((slots pos rules 0).map fun r => cf r w x).sum * _ = _
      rw [← List.sum_map_mul_right]
    rw [isum_congr this, ← isum_list]
    refine sum_congr fun r _ => ?_
    obtain ⟨r, s⟩ := r
    unfold ssval
    rw [if_pos hl]
    cases s with
    | none => simp [cf, isum_zero]
    | some s => rfl
  rw [flip hA (fun y x => hV _) h1 y z]
  congr 2
  have : ∀ w, A y w * V (sitem res.c.sl w z) = ((slots pos rules 0).map fun r => cf r y w * V (sitem res.c.sl w z)).sum := fun w => by
    show ((slots pos rules 0).map fun r => cf r y w).sum * _ = _
    rw [← List.sum_map_mul_right]
  rw [isum_congr this, ← isum_list]
  refine sum_congr fun r _ => ?_
  obtain ⟨r, s⟩ := r
  cases s with
  | none => simp [cf, isum_zero, sval]
  | some s =>
    obtain ⟨L, q, R⟩ := s
    simp only [sval, cf]
    rw [contribAt_coef]

end

/-! ### Naive evaluation -/

section
open Gr
variable [OSemi W]
variable {lct : Bool} {f : Nat} {sig : Sigs} {fv cv : Nat → Nat} {lam : Const} {rules : List (WRule W)} {inputs : List Tm}
  {pos : Nat → Option Nat} {x : Tm} {k : Nat} {res : Res W}

/-- `kw` as an exponent -/
noncomputable def kz (ot : Const) (rk : WRule W × Kind) : ℤ := match rk.2 with
  | .base | .ss _ | .rso => 1
  | .ro => 2
  | .o _ | .oo _ => if hfn rk.1.head = some ot then 1 else 3
/-- `pw` as an exponent -/
noncomputable def pz (exo : Tm → Prop) (s : Slot W) : ℤ := match s with
  | none => 3
  | some (_, q, _) => if exo q then 3 else 1

theorem mono_two : (mono 1 : Gr W) ^ 2 = mono 2 := by rw [pow_two, ← mono_add]; norm_num
theorem mono_three : (mono 1 : Gr W) ^ 3 = mono 3 := by rw [pow_succ, mono_two, ← mono_add]; norm_num

theorem kw_eq (ot : Const) (rk : WRule W × Kind) : kw ot (mono 1 : Gr W) rk = mono (kz ot rk) := by
  obtain ⟨r, kd⟩ := rk
  cases kd
  case ro => exact mono_two
  case o => by_cases h : hfn r.head = some ot <;> simp [kw, kz, h, mono_three]
  case oo => by_cases h : hfn r.head = some ot <;> simp [kw, kz, h, mono_three]
  all_goals rfl

theorem pw_eq (exo : Tm → Prop) (s : Slot W) : pw (mono 1 : Gr W) exo s = mono (pz exo s) := by
  cases s with
  | none => exact mono_three
  | some s => by_cases h : exo s.2.1 <;> simp [pw, pz, h, mono_three]

theorem kz_pos (ot : Const) (rk : WRule W × Kind) : 1 ≤ kz ot rk := by
  obtain ⟨r, kd⟩ := rk
  cases kd
  case o => by_cases h : hfn r.head = some ot <;> simp [kz, h]
  case oo => by_cases h : hfn r.head = some ot <;> simp [kz, h]
  all_goals simp [kz]
theorem pz_pos (exo : Tm → Prop) (s : Slot W) : 1 ≤ pz exo s := by
  cases s with
  | none => simp [pz]
  | some s => by_cases h : exo s.2.1 <;> simp [pz, h]

/-- **Naive evaluation of the transformed and of the original program have the same upper bounds on the original items.** -/
theorem least (S : Setup sig fv cv rules inputs pos k) (e : slash lct f sig fv cv lam rules inputs pos x k = some res)
    (hI : ∀ i ∈ inputs, hfn i ≠ some res.c.sl ∧ hfn i ≠ some res.c.ot) (hap : Apart res.nodes) (hb : sig (.str "$not_matches") 2 = true)
    {d : GTm → W} (D : DataOK sig inputs res.c d) (y : GTm) (hy : ¬ NewItem res.c y) (b : W) :
    (∀ n, rounds rules d n y ≤ b) ↔ ∀ n, rounds (res.rules.map Prod.fst) d n y ≤ b := by
  obtain ⟨E, F, hl, _, hlam⟩ := slash_run S e hI
  let sz : GTm → ℤ := fun z => if ∃ u, z = nmitem res.c.lam u then 0 else 1
  have hs : ∀ z, 0 ≤ sz z ∧ sz z ≤ 1 := fun z => by simp only [sz]; split <;> norm_num
  let ln : List (WRule W × (WRule W × Kind)) := res.rules.map fun rk => (rk.1, rk)
  have hfst : ln.map Prod.fst = res.rules.map Prod.fst := by simp [ln, Function.comp_def]
  obtain ⟨V, hV, hsup⟩ := exists_solution ln (fun rk => kz res.c.ot rk) (fun t _ => kz_pos _ _) d sz hs
  have hTw : ∀ z, Tw lift (fun rk => mono (kz res.c.ot rk)) ln V z = Val lift res.c.ot (mono 1) res.rules V z := fun z => by
    unfold Tw Val
    simp only [ln, List.map_map, Function.comp_def]
    exact sum_congr fun rk _ => by rw [kw_eq]
  have hdz : ∀ z, d z = 0 → at' (sz z) (d z) = 0 := fun z h => by rw [h]; funext n; simp [at', Gr.zero_def]
  have hsup0 : ∀ z, Supp 0 (V z) := fun z => (hsup z).le (hs z).1
  have H : Vals res lift (mono 1) V (fun z => at' (sz z) (d z)) := {
    eq := fun z => by rw [← hTw]; exact hV z
    new := fun z hz => hdz z (D.new z hz)
    data := fun z h1 h2 => hdz z (by
      by_contra h
      rcases D.data z h with h3 | ⟨i, hi, h4⟩
      · rw [← F.sigs, h1] at h3; simp at h3
      · exact h2 i (by rw [F.ins]; exact hi) h4)
    nm := fun z => by
      have h0 : sz (nmitem res.c.lam z) = 0 := if_pos ⟨z, rfl⟩
      rw [h0, D.nm z]
      split
      · funext n; simp [at', Gr.zero_def]
      · rfl }
  have hS : ∀ y x, Inst res.c.X x → V (sitem res.c.sl y x) = (if y = x then mono 1 else 0) +
      mono 1 * ((slots pos rules 0).map fun r => sval lift V r.1 r.2 (fun z => V (sitem res.c.sl z x)) y).sum := by
    intro y x hx
    cases hc : res.c.lct with
    | false => exact slash_items E hc H y x hx
    | true => exact lct_items E hc H hsup0 y x
  have hnm0 : ∀ z, sz z = 0 → V z = at' (sz z) (d z) := fun z hz => by
    -- such an item has no rule
    rw [hV z, hTw]
    have : ∃ u, z = nmitem res.c.lam u := by
      by_contra h
      have : sz z = 1 := if_neg h
      omega
    obtain ⟨u, rfl⟩ := this
    have h1 := original S E F hap hb H hS (nmitem res.c.lam u)
    have hN : ¬ NewItem res.c (nmitem res.c.lam u) := by
      rintro (h | h)
      · exact F.slnm (by have : some (Const.str "$not_matches") = some res.c.sl := h; simpa using this.symm)
      · exact F.otnm (by have : some (Const.str "$not_matches") = some res.c.ot := h; simpa using this.symm)
    rw [sum_zero_of, add_zero] at h1
    · simp only [off, if_neg hN] at h1
      rw [H.eq (nmitem res.c.lam u)] at h1
      exact h1
    · intro r hr
      rw [contrib_zero fun θ e => ?_, mul_zero]
      have h2 := S.plain.heads _ (mem_slots hr)
      rw [← inst_builtin (S.plain.named _ (mem_slots hr)).head ⟨θ, e⟩] at h2
      have h3 : isBuiltin sig (nmitem res.c.lam u).1 = true := hb
      rw [h3] at h2; simp at h2
  have hbz : ∀ z, sz z = 0 → ∀ n, cum n (V z) ≤ d z := fun z hz n => by rw [hnm0 z hz]; exact cum_at_le _ _ _
  -- the new program
  have n1 := cum_le_rounds (q := ln) (lo := fun rk => kz res.c.ot rk) hs hsup (fun z => Late.of_eq (hV z)) hbz
    (fun t _ θ => by have := kz_pos res.c.ot t.2; have := le_max_left (1 : ℤ) (bsize sz θ t.1.body); omega)
  have n2 := rounds_le_cum (q := ln) (hi := fun rk => kz res.c.ot rk) hs (fun z => Late.of_eq (hV z).symm)
  rw [hfst] at n1 n2
  -- the original program
  set U := off (NewItem res.c) V with hU
  have hUeq : ∀ z, U z = at' (sz z) (d z) + Tw lift (fun s => mono (pz (Exo res.c) s)) (slots pos rules 0) U z := fun z => by
    rw [hU, original S E F hap hb H hS z]
    congr 1
    unfold Tw
    exact sum_congr fun r _ => by rw [pw_eq]
  have hUsup : ∀ z, Supp (sz z) (U z) := fun z => by
    simp only [hU, off]
    split
    · exact supp_zero _
    · exact hsup z
  have hUb : ∀ z, sz z = 0 → ∀ n, cum n (U z) ≤ d z := fun z hz n => by
    simp only [hU, off]
    split
    · rw [cum_zero]; exact OSemi.zero_le' _
    · exact hbz z hz n
  have o1 := cum_le_rounds (q := slots pos rules 0) (lo := fun s => pz (Exo res.c) s) hs hUsup (fun z => Late.of_eq (hUeq z)) hUb
    (fun t _ θ => by have := pz_pos (Exo res.c) t.2; have := le_max_left (1 : ℤ) (bsize sz θ t.1.body); omega)
  have o2 := rounds_le_cum (q := slots pos rules 0) (hi := fun s => pz (Exo res.c) s) hs (fun z => Late.of_eq (hUeq z).symm)
  rw [slots_fst] at o1 o2
  have hUy : U y = V y := by simp [hU, off, hy]
  constructor
  · intro h n
    obtain ⟨s, hs0, h1⟩ := n2 n
    refine le_trans (h1 y) ?_
    rw [← hUy]
    refine le_trans (le_trans (cum_le_cum ?_ _) (o1 (s.toNat + 1) y)) (h _)
    push_cast; omega
  · intro h n
    obtain ⟨s, hs0, h1⟩ := o2 n
    refine le_trans (h1 y) ?_
    rw [hUy]
    refine le_trans (le_trans (cum_le_cum ?_ _) (n1 (s.toNat + 1) y)) (h _)
    push_cast; omega

/-! ### Property C54: the slash transformation -/

/-- **Values are preserved**: naive evaluation of the slashed program and of the original one have the same upper bounds on
every original item. -/
theorem C54_least (S : Setup sig fv cv rules inputs pos k) (e : slash false f sig fv cv lam rules inputs pos x k = some res)
    (hI : ∀ i ∈ inputs, hfn i ≠ some res.c.sl ∧ hfn i ≠ some res.c.ot) (hap : Apart res.nodes) (hb : sig (.str "$not_matches") 2 = true)
    {d : GTm → W} (D : DataOK sig inputs res.c d) (y : GTm) (hy : ¬ NewItem res.c y) (b : W) :
    (∀ n, rounds rules d n y ≤ b) ↔ ∀ n, rounds (res.rules.map Prod.fst) d n y ≤ b := least S e hI hap hb D y hy b

/-- **Solutions are preserved**: whatever values solve the equations of the slashed program, the original items among them
solve the original equations. -/
theorem C54_solutions {W : Type} [CSemi W] {rules : List (WRule W)} {res : Res W} (S : Setup sig fv cv rules inputs pos k)
    (e : slash false f sig fv cv lam rules inputs pos x k = some res)
    (hI : ∀ i ∈ inputs, hfn i ≠ some res.c.sl ∧ hfn i ≠ some res.c.ot) (hap : Apart res.nodes) (hb : sig (.str "$not_matches") 2 = true)
    {d : GTm → W} (D : DataOK sig inputs res.c d) {V : GTm → W} (hV : Sol (res.rules.map Prod.fst) d V) :
    Sol rules d (off (NewItem res.c) V) := by
  obtain ⟨E, F, hl, _, _⟩ := slash_run S e hI
  have hid : ∀ r : WRule W, mapRule id r = r := fun r => by
    have : (mapLit id : Lit W → Lit W) = id := by funext l; cases l <;> rfl
    simp [mapRule, this]
  have hkw : ∀ rk : WRule W × Kind, kw res.c.ot (1 : W) rk = 1 := fun rk => by unfold kw; split <;> simp
  have H : Vals res (id : W → W) 1 V d := {
    eq := fun z => by
      rw [hV z]
      congr 1
      unfold T Val
      rw [List.map_map]
      exact sum_congr fun rk _ => by simp [hkw, hid]
    new := D.new
    data := fun z h1 h2 => by
      by_contra h
      rcases D.data z h with h3 | ⟨i, hi, h4⟩
      · rw [← F.sigs, h1] at h3; simp at h3
      · exact h2 i (by rw [F.ins]; exact hi) h4
    nm := D.nm }
  intro y
  rw [original S E F hap hb H (fun y z hz => slash_items E hl H y z hz) y]
  congr 1
  unfold T
  conv_rhs => rw [← slots_fst pos rules 0, List.map_map]
  refine sum_congr fun r _ => ?_
  have : pw (1 : W) (Exo res.c) r.2 = 1 := by unfold pw; split <;> simp
  simp [this, hid]

/-! ### Property C55: the left-corner transformation -/

/-- **Values are preserved.** -/
theorem C55_least (S : Setup sig fv cv rules inputs pos k) (e : slash true f sig fv cv lam rules inputs pos x k = some res)
    (hI : ∀ i ∈ inputs, hfn i ≠ some res.c.sl ∧ hfn i ≠ some res.c.ot) (hap : Apart res.nodes) (hb : sig (.str "$not_matches") 2 = true)
    {d : GTm → W} (D : DataOK sig inputs res.c d) (y : GTm) (hy : ¬ NewItem res.c y) (b : W) :
    (∀ n, rounds rules d n y ≤ b) ↔ ∀ n, rounds (res.rules.map Prod.fst) d n y ≤ b := least S e hI hap hb D y hy b

end

/-! ### Examples -/

section Examples
open Unfold (at')

def nmSig : Sigs := fun c n => c == .str "$not_matches" && n == 2

/-- `f(X) += e(X,Y) * f(Y). f(X) += g(X).` with inputs `e(X,Y)` and `g(X)` -/
def demoP : List (WRule TV) := [⟨at' "f" [.var 0], [.sub (at' "e" [.var 0, .var 1]), .sub (at' "f" [.var 1])]⟩,
  ⟨at' "f" [.var 2], [.sub (at' "g" [.var 2])]⟩]
def demoI : List Tm := [at' "e" [.var 4, .var 6], at' "g" [.var 8]]
/-- the recursive subgoal of the first rule -/
def demoPos : Nat → Option Nat := fun i => if i = 0 then some 1 else none

theorem demo_setup : Setup nmSig (fun i => 2 * i) (fun i => 2 * i + 1) demoP demoI demoPos 10 where
  ifv a b h := by simpa using h
  icv a b h := by simpa using h
  sep i j := by omega
  plain := ⟨by decide, by
    intro r hr
    simp only [demoP, List.mem_cons, List.not_mem_nil, or_false] at hr
    rcases hr with rfl | rfl <;> refine ⟨⟨_, _, rfl⟩, fun t ht => ?_⟩ <;>
      simp only [List.mem_cons, Lit.sub.injEq, reduceCtorEq, List.not_mem_nil, or_false, false_or] at ht
    · rcases ht with rfl | rfl <;> exact ⟨_, _, rfl⟩
    · subst ht; exact ⟨_, _, rfl⟩⟩
  named i hi := by
    simp only [demoI, List.mem_cons, List.not_mem_nil, or_false] at hi
    rcases hi with rfl | rfl <;> exact ⟨_, _, rfl⟩
  terms := by
    have : Prune.terms nmSig demoP demoI = [at' "e" [.var 4, .var 6], at' "g" [.var 8], at' "f" [.var 0], at' "e" [.var 0, .var 1], at' "f" [.var 1],
      at' "f" [.var 2], at' "g" [.var 2]] := by decide
    rw [this]
    intro t ht
    simp only [List.mem_cons, List.not_mem_nil, or_false] at ht
    rcases ht with rfl | rfl | rfl | rfl | rfl | rfl | rfl <;>
      exact .app _ _ (fun t ht => by simp only [List.mem_cons, List.not_mem_nil, or_false] at ht; rcases ht with rfl | rfl <;> exact .var _)
  oldR := by
    have : ∀ r ∈ demoP, ∀ n ∈ rvars r, n ≤ 2 := by decide
    intro r hr n hn j hj
    have := this r hr n hn
    omega
  oldI := by
    have : ∀ i ∈ demoI, ∀ n ∈ vars i, n ≤ 8 ∧ n % 2 = 0 := by decide
    intro i hi n hn
    have := this i hi n hn
    exact ⟨fun j hj => by omega, fun j => by omega⟩
  apart := by decide
  heads := by decide
  unif := by
    intro r hr q hq y _ _
    have : usefulList demoPos demoP 0 = [at' "f" [.var 1]] := by decide
    rw [this, List.mem_singleton] at hq
    subst hq
    refine ⟨fun _ => .var 0, ?_⟩
    simp only [demoP, List.mem_cons, List.not_mem_nil, or_false] at hr
    rcases hr with rfl | rfl <;> simp

/-- the slashed program: `f(X)/f(X). f(X)/f(Z) += e(X,Y) * f(Y)/f(Z). $other(f(X)) += g(X).
f(X) += $other(f(X)) * $not_matches(lam(f(Z)), f(X)). f(X) += $other(f(Z)) * f(X)/f(Z).` -/
theorem demo_slash : (slash false 30 nmSig (fun i => 2 * i) (fun i => 2 * i + 1) (.str "lam") demoP demoI demoPos (at' "f" [.var 0]) 10).map
    (fun r => (r.rules.map Prod.fst, r.nodes, r.c.sl, r.c.ot, r.c.lam, r.c.X)) = some
    ([⟨at' "/" [at' "f" [.var 52], at' "f" [.var 52]], []⟩,
      ⟨at' "/" [at' "f" [.var 54], at' "f" [.var 56]], [.sub (at' "e" [.var 54, .var 58]), .sub (at' "/" [at' "f" [.var 58], at' "f" [.var 56]])]⟩,
      ⟨at' "$other" [at' "f" [.var 60]], [.sub (at' "g" [.var 60])]⟩,
      ⟨at' "f" [.var 66], [.sub (at' "$other" [at' "f" [.var 66]]), .sub (at' "$not_matches" [.con (.str "lam"), at' "f" [.var 66]])]⟩,
      ⟨at' "f" [.var 74], [.sub (at' "$other" [at' "f" [.var 76]]), .sub (at' "/" [at' "f" [.var 74], at' "f" [.var 76]])]⟩],
    [at' "e" [.var 1, .var 3], at' "f" [.var 1], at' "g" [.var 1]], .str "/", .str "$other", .str "lam", at' "f" [.var 20]) := by decide +kernel

/-- the left-corner transformation of the same program; its rule `ss` is `Y/f(B) += e(A,B) * Y/f(A)` -/
theorem demo_lct : (slash true 30 nmSig (fun i => 2 * i) (fun i => 2 * i + 1) (.str "lam") demoP demoI demoPos (at' "f" [.var 0]) 10).map
    (fun r => (r.rules.map Prod.fst, r.nodes, r.c.sl, r.c.ot, r.c.lam, r.c.X)) = some
    ([⟨at' "/" [.var 52, .var 52], []⟩,
      ⟨at' "/" [.var 54, at' "f" [.var 56]], [.sub (at' "e" [.var 58, .var 56]), .sub (at' "/" [.var 54, at' "f" [.var 58]])]⟩,
      ⟨at' "$other" [at' "f" [.var 60]], [.sub (at' "g" [.var 60])]⟩,
      ⟨at' "f" [.var 66], [.sub (at' "$other" [at' "f" [.var 66]]), .sub (at' "$not_matches" [.con (.str "lam"), at' "f" [.var 66]])]⟩,
      ⟨at' "f" [.var 74], [.sub (at' "$other" [at' "f" [.var 76]]), .sub (at' "/" [at' "f" [.var 74], at' "f" [.var 76]])]⟩],
    [at' "e" [.var 1, .var 3], at' "f" [.var 1], at' "g" [.var 1]], .str "/", .str "$other", .str "lam", at' "f" [.var 20]) := by decide +kernel

theorem demo_apart : Apart [at' "e" [.var 1, .var 3], at' "f" [.var 1], at' "g" [.var 1]] := by
  have ne : ∀ (a b : String) as bs, a ≠ b → ∀ y, ¬ (Inst (at' a as) y ∧ Inst (at' b bs) y) := by
    rintro a b as bs h y ⟨⟨θ, rfl⟩, ⟨φ, e⟩⟩
    have := congrArg (fun z => hfn z.1) e
    simp [gsub, hfn] at this
    exact h this.symm
  simp only [Apart, List.pairwise_cons, List.mem_cons, List.not_mem_nil, or_false, forall_eq_or_imp, forall_eq, IsEmpty.forall_iff, implies_true,
    List.Pairwise.nil, and_true]
  exact ⟨⟨ne _ _ _ _ (by decide), ne _ _ _ _ (by decide)⟩, ne _ _ _ _ (by decide)⟩

/-- any facts for `e` and `g`, with the meaning of `$not_matches` -/
noncomputable def demoD (F : GTm → Prop) : GTm → TV := fun z =>
  if (∃ u, z = nmitem (.str "lam") u ∧ ¬ Inst (at' "f" [.var 20]) u) ∨ (F z ∧ ∃ i ∈ demoI, Inst i z) then .t else .f

theorem nmitem_inj {lam : Const} {u w : GTm} (h : nmitem lam u = nmitem lam w) : u = w := by
  have := congrArg Subtype.val h
  simp only [nmitem, nmT, Tm.app.injEq, List.cons.injEq, and_true, true_and] at this
  exact Subtype.ext this

theorem demo_data (F : GTm → Prop) {c : Cfg} (h1 : c.sl = .str "/") (h2 : c.ot = .str "$other") (h3 : c.lam = .str "lam") (h4 : c.X = at' "f" [.var 20]) :
    DataOK nmSig demoI c (demoD F) := by
  have hin : ∀ z, (∃ i ∈ demoI, Inst i z) → hfn z.1 = some (.str "e") ∨ hfn z.1 = some (.str "g") := by
    rintro z ⟨i, hi, θ, rfl⟩
    simp only [demoI, List.mem_cons, List.not_mem_nil, or_false] at hi
    rcases hi with rfl | rfl
    · exact .inl (by simp [gsub, hfn])
    · exact .inr (by simp [gsub, hfn])
  refine ⟨fun z hz => ?_, fun z hz => ?_, fun z => ?_⟩
  · simp only [demoD] at hz
    split at hz
    · next h =>
      rcases h with ⟨u, rfl, _⟩ | ⟨_, h⟩
      · exact .inl rfl
      · exact .inr h
    · exact absurd rfl hz
  · simp only [demoD]
    refine if_neg ?_
    rintro (⟨u, rfl, _⟩ | ⟨_, h⟩)
    · rcases hz with h | h
      · rw [h1] at h; simp [nmitem, nmT, hfn] at h
      · rw [h2] at h; simp [nmitem, nmT, hfn] at h
    · rcases hin z h with h | h <;> rcases hz with h' | h' <;> rw [h] at h' <;> simp [h1, h2] at h'
  · simp only [demoD, h3, h4]
    by_cases hi : Inst (at' "f" [.var 20]) z
    · rw [if_pos hi]
      refine if_neg ?_
      rintro (⟨u, h, hu⟩ | ⟨_, h⟩)
      · rw [← nmitem_inj h] at hu; exact hu hi
      · rcases hin _ h with h | h <;> simp [nmitem, nmT, hfn] at h
    · rw [if_neg hi]
      exact if_pos (.inl ⟨z, rfl, hi⟩)

/-- the hypotheses of C54 hold of the example, whatever the facts -/
example (F : GTm → Prop) : ∃ res, slash false 30 nmSig (fun i => 2 * i) (fun i => 2 * i + 1) (.str "lam") demoP demoI demoPos (at' "f" [.var 0]) 10 = some res ∧
    (∀ y, ¬ NewItem res.c y → ∀ b, (∀ n, rounds demoP (demoD F) n y ≤ b) ↔ ∀ n, rounds (res.rules.map Prod.fst) (demoD F) n y ≤ b) ∧
    ∀ V, Sol (res.rules.map Prod.fst) (demoD F) V → Sol demoP (demoD F) (off (NewItem res.c) V) := by
  obtain ⟨res, e, h⟩ := Option.map_eq_some_iff.1 demo_slash
  simp only [Prod.mk.injEq] at h
  obtain ⟨-, h1, h2, h3, h4, h5⟩ := h
  have hI : ∀ i ∈ demoI, hfn i ≠ some res.c.sl ∧ hfn i ≠ some res.c.ot := by rw [h2, h3]; decide
  have hap : Apart res.nodes := by rw [h1]; exact demo_apart
  exact ⟨res, e, fun y hy b => C54_least demo_setup e hI hap rfl (demo_data F h2 h3 h4 h5) y hy b,
    fun V hV => C54_solutions demo_setup e hI hap rfl (demo_data F h2 h3 h4 h5) hV⟩

/-- and so do those of C55 -/
example (F : GTm → Prop) : ∃ res, slash true 30 nmSig (fun i => 2 * i) (fun i => 2 * i + 1) (.str "lam") demoP demoI demoPos (at' "f" [.var 0]) 10 = some res ∧
    ∀ y, ¬ NewItem res.c y → ∀ b, (∀ n, rounds demoP (demoD F) n y ≤ b) ↔ ∀ n, rounds (res.rules.map Prod.fst) (demoD F) n y ≤ b := by
  obtain ⟨res, e, h⟩ := Option.map_eq_some_iff.1 demo_lct
  simp only [Prod.mk.injEq] at h
  obtain ⟨-, h1, h2, h3, h4, h5⟩ := h
  have hI : ∀ i ∈ demoI, hfn i ≠ some res.c.sl ∧ hfn i ≠ some res.c.ot := by rw [h2, h3]; decide
  have hap : Apart res.nodes := by rw [h1]; exact demo_apart
  exact ⟨res, e, fun y hy b => C55_least demo_setup e hI hap rfl (demo_data F h2 h3 h4 h5) y hy b⟩

/-! ### Violations -/

/-- a set of items that no rule can leave stays at zero -/
theorem rounds_zero_of {p : List (WRule TV)} {d : GTm → TV} (Z : GTm → Prop) (hd : ∀ z, Z z → d z = 0)
    (h : ∀ r ∈ p, ∀ θ, Z (gsub θ r.head) → ∃ q, Lit.sub q ∈ r.body ∧ Z (gsub θ q)) : ∀ n z, Z z → rounds p d n z = 0 := by
  intro n
  induction n with
  | zero => intro z _; rfl
  | succ n ih =>
    intro z hz
    show d z + T p (rounds p d n) z = 0
    rw [hd z hz, zero_add]
    unfold T
    refine sum_zero_of fun r hr => ?_
    unfold contrib
    refine (isum_congr fun a => ?_).trans isum_zero
    split
    · next e =>
      obtain ⟨q, hq, hZ⟩ := h r hr (ext a) (e.symm ▸ hz)
      exact Prune.bv_zero hq (ih _ hZ)
    · rfl

/-- one step of a derivation -/
theorem rounds_step {p : List (WRule TV)} {d : GTm → TV} {r : WRule TV} (hr : r ∈ p) {q : Tm} (hb : r.body = [.sub q]) (hq : vars q ⊆ rvars r)
    (θ : Nat → GTm) {n : Nat} (h : rounds p d n (gsub θ q) = .t) : rounds p d (n + 1) (gsub θ r.head) = .t := by
  show d _ + T p (rounds p d n) _ = .t
  rw [TV.add_iff]
  refine .inr ?_
  have c1 : contrib r (rounds p d n) (gsub θ r.head) = .t := by
    unfold contrib
    refine (TV.any_iff _).2 ⟨cut _ θ, ?_⟩
    have hc : ∀ n ∈ rvars r, ext (cut (rvars r) θ) n = θ n := fun n hn => ext_cut hn
    rw [gsub_congr (φ := θ) (t := r.head) fun n hn => hc n (Finset.mem_union_left _ hn), if_pos rfl, hb]
    simp only [bv, List.map_cons, List.map_nil, List.prod_cons, List.prod_nil, mul_one, lv]
    rw [gsub_congr (φ := θ) (t := q) fun n hn => hc n (hq hn), h]
  obtain ⟨p1, p2, rfl⟩ := List.append_of_mem hr
  rw [T_append, T_cons, TV.add_iff, TV.add_iff]
  exact .inr (.inl c1)

/-- `f(X) += f(s(X)). f(X) += k(X).` with input `k(X)` -/
def occP : List (WRule TV) := [⟨at' "f" [.var 0], [.sub (at' "f" [at' "s" [.var 0]])]⟩, ⟨at' "f" [.var 2], [.sub (at' "k" [.var 2])]⟩]

def num : Nat → GTm
  | 0 => ⟨.con (.str "z"), by simp [Ground]⟩
  | n + 1 => gsub (fun _ => num n) (at' "s" [.var 0])

/-- `f(n)`, `k(n)` -/
def un (f : String) (n : Nat) : GTm := gsub (fun _ => num n) (at' f [.var 0])

/-- **Values are lost when a subgoal is an instance of its own head** (the hypothesis `unif`).  `_is_useful_other(f(X))` compares `f(X)`
with the subgoal `f(s(X))` of the same rule, with the same `X`: the occurs check fails and the head of the rule `oo` is the plain item
`f(X)`, although the items `$other(f(s(X)))` in its body need it.  From `k(s(s(z)))` the program derives `f(z)`; the slashed
program does not. -/
theorem C54_occurs_check : ∃ q, (slash false 30 nmSig (fun i => 2 * i) (fun i => 2 * i + 1) (.str "lam") occP [at' "k" [.var 4]]
      (fun i => if i = 0 then some 0 else none) (at' "h" [.var 6]) 10).map (fun r => r.rules.map Prod.fst) = some q ∧
    rounds occP (fun x => if x = un "k" 2 then TV.t else .f) 4 (un "f" 0) = .t ∧
    ∀ n, rounds q (fun x => if x = un "k" 2 then TV.t else .f) n (un "f" 0) = .f := by
  refine ⟨[⟨at' "/" [at' "h" [.var 40], at' "h" [.var 40]], []⟩, ⟨at' "/" [at' "f" [.var 42], at' "h" [.var 44]],
    [.sub (at' "/" [at' "f" [at' "s" [.var 42]], at' "h" [.var 44]])]⟩, ⟨at' "f" [.var 46], [.sub (at' "$other" [at' "f" [at' "s" [.var 46]]])]⟩,
    ⟨at' "$other" [at' "f" [.var 48]], [.sub (at' "k" [.var 48])]⟩, ⟨at' "f" [.var 54], [.sub (at' "$other" [at' "f" [.var 54]])]⟩],
    by decide +kernel, ?_, ?_⟩
  · have s1 : rounds occP (fun x => if x = un "k" 2 then TV.t else .f) 1 (un "k" 2) = .t := by
      show (if un "k" 2 = un "k" 2 then TV.t else .f) + _ = _
      rw [if_pos rfl, TV.add_iff]; exact .inl rfl
    have s2 := rounds_step (p := occP) (r := occP[1]) (by simp [occP]) rfl (by decide) (fun _ => num 2) (n := 1) s1
    have s3 := rounds_step (p := occP) (r := occP[0]) (by simp [occP]) rfl (by decide) (fun _ => num 1) (n := 2) s2
    exact rounds_step (p := occP) (r := occP[0]) (by simp [occP]) rfl (by decide) (fun _ => num 0) (n := 3) s3
  · intro n
    refine rounds_zero_of (fun z => z = un "f" 0 ∨ z = oitem (.str "$other") (un "f" 0) ∨ z = oitem (.str "$other") (un "f" 1) ∨ z = un "k" 0 ∨
      z = un "k" 1) ?_ ?_ n _ (.inl rfl)
    · rintro z (rfl | rfl | rfl | rfl | rfl) <;> refine if_neg fun e => ?_ <;> have := congrArg Subtype.val e <;>
        simp [un, gsub, oitem, otherT, num] at this
    · intro r hr θ hz
      simp only [List.mem_cons, List.not_mem_nil, or_false] at hr
      rcases hr with rfl | rfl | rfl | rfl | rfl
      · rcases hz with e | e | e | e | e <;> have := congrArg Subtype.val e <;> simp [un, gsub, oitem, otherT] at this
      · rcases hz with e | e | e | e | e <;> have := congrArg Subtype.val e <;> simp [un, gsub, oitem, otherT] at this
      · refine ⟨_, List.mem_singleton.2 rfl, .inr (.inr (.inl ?_))⟩
        rcases hz with e | e | e | e | e <;> have := congrArg Subtype.val e <;> simp [un, gsub, oitem, otherT] at this
        apply Subtype.ext
        simp [un, gsub, oitem, otherT, this, num]
      · refine ⟨_, List.mem_singleton.2 rfl, .inr (.inr (.inr ?_))⟩
        rcases hz with e | e | e | e | e <;> have := congrArg Subtype.val e <;> simp [un, gsub, oitem, otherT] at this
        · exact .inl (Subtype.ext (by simp [un, gsub, this]))
        · exact .inr (Subtype.ext (by simp [un, gsub, this]))
      · refine ⟨_, List.mem_singleton.2 rfl, .inr (.inl ?_)⟩
        rcases hz with e | e | e | e | e <;> have := congrArg Subtype.val e <;> simp [un, gsub, oitem, otherT] at this
        apply Subtype.ext
        simp [un, gsub, oitem, otherT, this]

/-- **Values are lost when an item is both declared as input and defined by a rule** (the hypothesis `heads`).  `f(2) += k. goal += f(X).`
with inputs `f(1)` and `k`: the value of `f(2)` goes to `$other(f(2))`, but `goal` reads `f(X)`, which counts as input.  With `k` the
program derives `goal`; the slashed program does not. -/
theorem C54_partly_input : ∃ q, (slash (W := TV) false 30 nmSig (fun i => 2 * i) (fun i => 2 * i + 1) (.str "lam")
      [⟨at' "f" [.con (.int 2)], [.sub (at' "k" [])]⟩, ⟨at' "goal" [], [.sub (at' "f" [.var 0])]⟩] [at' "f" [.con (.int 1)], at' "k" []]
      (fun i => if i = 1 then some 0 else none) (at' "f" [.var 6]) 10).map (fun r => r.rules.map Prod.fst) = some q ∧
    rounds [⟨at' "f" [.con (.int 2)], [.sub (at' "k" [])]⟩, ⟨at' "goal" [], [.sub (at' "f" [.var 0])]⟩]
      (fun x => if x = gsub (fun _ => num 0) (at' "k" []) then TV.t else .f) 3 (gsub (fun _ => num 0) (at' "goal" [])) = .t ∧
    ∀ n, rounds q (fun x => if x = gsub (fun _ => num 0) (at' "k" []) then TV.t else .f) n (gsub (fun _ => num 0) (at' "goal" [])) = .f := by
  refine ⟨[⟨at' "/" [at' "f" [.var 30], at' "f" [.var 30]], []⟩, ⟨at' "$other" [at' "f" [.con (.int 2)]], [.sub (at' "k" [])]⟩,
    ⟨at' "/" [at' "goal" [], at' "f" [.var 32]], [.sub (at' "/" [at' "f" [.var 34], at' "f" [.var 32]])]⟩,
    ⟨at' "goal" [], [.sub (at' "f" [.var 38]), .sub (at' "/" [at' "goal" [], at' "f" [.var 38]])]⟩],
    by decide +kernel, ?_, ?_⟩
  · set p : List (WRule TV) := [⟨at' "f" [.con (.int 2)], [.sub (at' "k" [])]⟩, ⟨at' "goal" [], [.sub (at' "f" [.var 0])]⟩] with hp
    have s1 : rounds p (fun x => if x = gsub (fun _ => num 0) (at' "k" []) then TV.t else .f) 1 (gsub (fun _ => num 0) (at' "k" [])) = .t := by
      show (if _ = _ then TV.t else .f) + _ = _
      rw [if_pos rfl, TV.add_iff]; exact .inl rfl
    have s2 := rounds_step (p := p) (r := p[0]) (by simp [hp]) rfl (by decide) (fun _ => num 0) (n := 1) s1
    have e1 : gsub (fun _ => num 0) p[0].head = gsub (fun _ => ⟨.con (.int 2), by simp [Ground]⟩) (at' "f" [.var 0]) := Subtype.ext (by simp [hp, gsub])
    rw [e1] at s2
    have s3 := rounds_step (p := p) (r := p[1]) (by simp [hp]) rfl (by decide) _ (n := 2) s2
    have e2 : gsub (fun _ => ⟨.con (.int 2), by simp [Ground]⟩) p[1].head = gsub (fun _ => num 0) (at' "goal" []) := Subtype.ext (by simp [hp, gsub])
    rwa [e2] at s3
  · intro n
    refine rounds_zero_of (fun z => hfn z.1 = some (.str "goal") ∨ hfn z.1 = some (.str "f")) ?_ ?_ n _ (.inl (by simp [gsub, hfn]))
    · intro z hz
      refine if_neg fun e => ?_
      subst e
      simp [gsub, hfn] at hz
    · intro r hr θ hz
      simp only [List.mem_cons, List.not_mem_nil, or_false] at hr
      rcases hr with rfl | rfl | rfl | rfl
      · simp [gsub, hfn] at hz
      · simp [gsub, hfn] at hz
      · simp [gsub, hfn] at hz
      · exact ⟨at' "f" [.var 38], by simp, .inr (by simp [gsub, hfn])⟩

end Examples

end Slash
end Verif
