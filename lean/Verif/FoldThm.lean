/-
Property C34: folding is the inverse of unfolding.
-/
import Verif.Fold
import Verif.UnfoldThm
import Verif.RuleEqThm

set_option linter.unusedSectionVars false
set_option linter.unusedSimpArgs false

namespace Verif
open Tm Heap Sem
open Solver (noHeap forEach good_noHeap respects_noHeap)

namespace Fold
open Unfold (Prog US Ops unfold Pre defn Data Below)
variable {W : Type} [CSemi W]

/-! ### Spec -/

/-- `s` is `r` with variables renamed one-to-one and body elements rearranged -/
def WVariant (r s : WRule W) : Prop :=
  ∃ ρ : Nat → Nat, Set.InjOn ρ (rvars r) ∧ s.head = r.head.sub (fun n => .var (ρ n)) ∧ s.body.Perm (r.body.map (renLit ρ))

theorem contrib_variant {r s : WRule W} (h : WVariant r s) (v : GTm → W) (x : GTm) : contrib s v x = contrib r v x := by
  obtain ⟨ρ, h1, h2, h3⟩ := h
  rw [← contrib_ren h1]
  unfold renRule
  rw [← h2, ← contrib_perm h3]

theorem T_corr {p q : List (WRule W)} (h : ∃ q', q'.Perm q ∧ List.Forall₂ WVariant p q') (v : GTm → W) (x : GTm) :
    T p v x = T q v x := by
  obtain ⟨q', h1, h2⟩ := h
  rw [← T_perm h1]
  clear h1
  induction h2 with
  | nil => rfl
  | cons h _ ih => rw [T_cons, T_cons, ih, contrib_variant h]

/-- a rule comparison that program equality can rely on and that only identifies variants -/
structure Faithful {S : Type} (o : RuleOps (WRule W) S) : Prop where
  lawful : o.Lawful
  variant : ∀ r s, o.same r s = true → WVariant r s

variable [DecidableEq W] {S' : Type} [DecidableEq S'] {o : RuleOps (WRule W) S'}

theorem progEq_T (ho : Faithful o) {p q : List (WRule W)} (h : o.progEq false p q = true) (v : GTm → W) (x : GTm) :
    T p v x = T q v x := by
  obtain ⟨q', h1, h2⟩ := (RuleOps.C17_eq ho.lawful (by simp)).1 h
  exact T_corr ⟨q', h1, h2.imp fun r s => ho.variant r s⟩ v x

/-! ### Property C34 -/

/-- **C34 (partial safety).**  The check terminates.  If it accepts the fold, then wherever the subgoal's instances
have the value given by the definitions, the folded program has the same step operator as the parent. -/
theorem C34_partially_safe (ho : Faithful o) {ops : Ops} {k : Nat} {p defs : Prog W} {r : WRule W} {S : Finset Nat} {j : Nat} {q : Tm}
    (h : Pre ops k (fold p r S) defs 0 j r q) :
    ∃ b, Evt (fun f => partiallySafe f o ops infty k p defs r S j = some b) ∧
      (b = true → ∀ v, (∀ θ, v (gsub θ q) = defn ops defs.rules v (gsub θ q)) → ∀ x, T (fold p r S).rules v x = T p.rules v x) := by
  obtain ⟨new, st, h1, h2⟩ := Unfold.C33_same_step h
  refine ⟨o.progEq false p.rules new, h1.mono fun f e => by simp only [partiallySafe, e], fun hb v hv x => ?_⟩
  rw [← h2 v hv x, progEq_T ho hb]

/-- **C34 (solutions of partially safe folds).**  A solution of the parent that also satisfies the definitions of the
subgoal solves the folded program, and conversely. -/
theorem C34_solutions (ho : Faithful o) {ops : Ops} {k : Nat} {p defs : Prog W} {r : WRule W} {S : Finset Nat} {j : Nat} {q : Tm}
    (h : Pre ops k (fold p r S) defs 0 j r q) :
    ∃ b, Evt (fun f => partiallySafe f o ops infty k p defs r S j = some b) ∧
      (b = true → ∀ d v, (∀ θ, v (gsub θ q) = defn ops defs.rules v (gsub θ q)) → (Sol p.rules d v ↔ Sol (fold p r S).rules d v)) := by
  obtain ⟨b, h1, h2⟩ := C34_partially_safe ho h
  exact ⟨b, h1, fun hb d v hv => forall_congr' fun x => by rw [h2 hb v hv x]⟩

/-- **C34 (reversible folds, solutions).**  If the check `safe_by_rev` accepts, every solution of the folded program
solves the parent. -/
theorem C34_reversible (ho : Faithful o) {ops : Ops} {k : Nat} {p : Prog W} {r : WRule W} {S : Finset Nat} {j : Nat} {q : Tm}
    (h : Pre ops k (fold p r S) (fold p r S) 0 j r q) {d : GTm → W} (hd : Data ops p.inputs d) :
    ∃ b, Evt (fun f => safeByRev f o ops infty k p r S j = some b) ∧
      (b = true → ∀ v, Sol (fold p r S).rules d v → Sol p.rules d v) := by
  obtain ⟨new, st, h1, h2⟩ := Unfold.C33_solutions h hd
  refine ⟨o.progEq false new p.rules, h1.mono fun f e => by simp only [safeByRev, e], fun hb v hv x => ?_⟩
  rw [← progEq_T ho hb]
  exact h2 v hv x

/-- ... and the other way round if the new rule cannot derive the subgoal it introduces. -/
theorem C34_reversible_iff (ho : Faithful o) {ops : Ops} {k : Nat} {p : Prog W} {r : WRule W} {S : Finset Nat} {j : Nat} {q : Tm}
    (h : Pre ops k (fold p r S) (fold p r S) 0 j r q) {d : GTm → W} (hd : Data ops p.inputs d)
    (hr : ∀ θ φ, gsub θ r.head ≠ gsub φ q) :
    ∃ b, Evt (fun f => safeByRev f o ops infty k p r S j = some b) ∧
      (b = true → ∀ v, Sol (fold p r S).rules d v ↔ Sol p.rules d v) := by
  obtain ⟨new, st, h1, h2⟩ := Unfold.C33_nonrecursive h hd hr
  refine ⟨o.progEq false new p.rules, h1.mono fun f e => by simp only [safeByRev, e], fun hb v => ?_⟩
  rw [h2 v]
  exact forall_congr' fun x => by rw [progEq_T ho hb]

/-! ### The actual rule comparison -/

/-- how values appear in rule bodies; `code` says which constants are equal as semiring values -/
def encLit (code : W → Const) : Lit W → Tm
  | .val k => .con (code k)
  | .sub t => t

/-- a rule as seen by rule equality -/
def enc (code : W → Const) (r : WRule W) : Rule := ⟨r.head, r.body.map (encLit code)⟩

/-- heads and subgoals are terms, not variables or constants -/
def WProper (r : WRule W) : Prop := (∃ as, r.head = .app as) ∧ ∀ t, Lit.sub t ∈ r.body → ∃ as, t = .app as

omit [DecidableEq W] in
theorem enc_proper {code : W → Const} {r : WRule W} (h : WProper r) : (enc code r).Proper := by
  intro x hx n hn
  subst hn
  simp only [enc, List.mem_cons, List.mem_map] at hx
  rcases hx with hx | ⟨l, hl, hx⟩
  · obtain ⟨as, ha⟩ := h.1
    rw [ha] at hx; cases hx
  · cases l with
    | val k => simp [encLit] at hx
    | sub t =>
      obtain ⟨as, ha⟩ := h.2 t hl
      simp only [encLit] at hx
      rw [ha] at hx; cases hx

omit [DecidableEq W] in
theorem vars_enc (code : W → Const) (r : WRule W) : vars (enc code r).tm = rvars r := by
  have : ∀ b : List (Lit W), ∀ n, (∃ t ∈ b.map (encLit code), n ∈ vars t) ↔ n ∈ bodyVars b := by
    intro b n
    simp only [mem_bodyVars, List.mem_map, exists_exists_and_eq_and]
    refine exists_congr fun l => and_congr_right fun _ => ?_
    cases l <;> simp [encLit, litVars]
  ext n
  simp only [Rule.tm, enc, vars_app, mem_varsL, List.mem_cons, rvars, Finset.mem_union, ← this]
  constructor
  · rintro ⟨t, rfl | ht, hn⟩
    · exact .inl hn
    · exact .inr ⟨t, ht, hn⟩
  · rintro (hn | ⟨t, ht, hn⟩)
    · exact ⟨_, .inl rfl, hn⟩
    · exact ⟨t, .inr ht, hn⟩

omit [DecidableEq W] in
theorem enc_variant {code : W → Const} (hc : Function.Injective code) {r s : WRule W} (hr : WProper r) (hs : WProper s) :
    Rule.RuleVariant (enc code r) (enc code s) ↔ WVariant r s := by
  classical
  have hmap : ∀ ρ : Nat → Nat, (enc code r).body.map (Tm.sub fun n => .var (ρ n)) = (r.body.map (renLit ρ)).map (encLit code) := by
    intro ρ
    simp only [enc, List.map_map]
    refine List.map_congr_left fun l _ => ?_
    cases l <;> simp [encLit, renLit]
  have : Nonempty (Const → W) ∨ IsEmpty W := by
    by_cases h : Nonempty W
    · obtain ⟨w⟩ := h; exact .inl ⟨fun _ => w⟩
    · exact .inr (not_nonempty_iff.1 h)
  have h0 : Nonempty W := ⟨0⟩
  let dec : Tm → Lit W := fun t => match t with
    | .con c => .val (Function.invFun code c)
    | t => .sub t
  have hdec : ∀ l : Lit W, (∀ t, l = .sub t → ∃ as, t = .app as) → dec (encLit code l) = l := by
    intro l hl
    cases l with
    | val k => simp [dec, encLit, Function.leftInverse_invFun hc k]
    | sub t =>
      obtain ⟨as, rfl⟩ := hl t rfl
      simp [dec, encLit]
  have hdecM : ∀ b : List (Lit W), (∀ t, Lit.sub t ∈ b → ∃ as, t = .app as) → (b.map (encLit code)).map dec = b := by
    intro b hb
    rw [List.map_map]
    conv_rhs => rw [← List.map_id b]
    refine List.map_congr_left fun l hl => ?_
    exact hdec l fun t ht => hb t (ht ▸ hl)
  constructor
  · rintro ⟨ρ, h1, h2, h3⟩
    refine ⟨ρ, by rw [vars_enc] at h1; exact h1, h2, ?_⟩
    rw [hmap] at h3
    have := h3.map dec
    rw [hdecM (r.body.map (renLit ρ))] at this
    · have e : (enc code s).body.map dec = s.body := hdecM s.body hs.2
      rwa [e] at this
    · intro t ht
      obtain ⟨l, hl, he⟩ := List.mem_map.1 ht
      cases l with
      | val k => simp [renLit] at he
      | sub u =>
        obtain ⟨as, rfl⟩ := hr.2 u hl
        simp only [renLit, Lit.sub.injEq] at he
        exact ⟨_, he.symm.trans (by rw [sub_app])⟩
  · rintro ⟨ρ, h1, h2, h3⟩
    refine ⟨ρ, by rw [vars_enc]; exact h1, h2, ?_⟩
    rw [hmap]
    exact h3.map _

omit [DecidableEq W] in
/-- **C34 (the comparison used).**  The rule comparison of rule.py (C16), applied to rules with semiring values, identifies
exactly the variants; so it is of the kind assumed of `o`. -/
theorem C34_rule_equality {code : W → Const} (hc : Function.Injective code) {cv fv : Nat → Nat} (hcv : Function.Injective cv)
    (hfv : Function.Injective fv) {hash : Tm × Multiset Tm → Nat} {f k : Nat} {r s : WRule W} (hr : WProper r) (hs : WProper s)
    (hk : Alloc fv k (enc code r).tm)
    (hb : r.body = [] → hash (Rule.signature cv (enc code r)) = hash (Rule.signature cv (enc code s)) → s.body = []) {b}
    (e : Rule.same cv fv hash f k false (enc code r) (enc code s) = some b) : b = true ↔ WVariant r s := by
  rw [Rule.C16_same hcv hfv (enc_proper hr) (by simp) hk (by simpa [enc] using hb) e, enc_variant hc hr hs]

/-! ### Finding the rules to fold -/

theorem T_eraseIdx {p : List (WRule W)} {i : Nat} {s : WRule W} (h : p[i]? = some s) (v : GTm → W) (x : GTm) :
    T p v x = T (p.eraseIdx i) v x + contrib s v x := by
  obtain ⟨hi, rfl⟩ := List.getElem?_eq_some_iff.1 h
  rw [T_perm (List.getElem_cons_eraseIdx_perm hi).symm, T_cons, add_comm]

theorem T_pops (v : GTm → W) (x : GTm) : ∀ (l : List Nat) (p : List (WRule W)), l.Pairwise (· > ·) → (∀ i ∈ l, i < p.length) →
    T p v x = T (l.foldl (fun l i => l.eraseIdx i) p) v x + (l.map fun i => (p[i]?.map fun s => contrib s v x).getD 0).sum
  | [], p, _, _ => by simp
  | i :: l, p, h, hl => by
    have hi := hl i (by simp)
    rw [List.pairwise_cons] at h
    have e : p[i]? = some p[i] := List.getElem?_eq_getElem hi
    rw [List.foldl_cons, T_eraseIdx e, T_pops v x l (p.eraseIdx i) h.2 (fun j hj => by
      have := h.1 j hj
      rw [List.length_eraseIdx_of_lt hi]; omega)]
    simp only [List.map_cons, List.sum_cons, e, Option.map_some, Option.getD_some]
    have : (l.map fun i_1 => ((p.eraseIdx i)[i_1]?.map fun s => contrib s v x).getD 0) =
        l.map fun i_1 => (p[i_1]?.map fun s => contrib s v x).getD 0 := by
      refine List.map_congr_left fun j hj => ?_
      rw [List.getElem?_eraseIdx_of_lt (h.1 j hj)]
    rw [this]; ring

theorem T_minus {p : List (WRule W)} {S : Finset Nat} (h : ∀ i ∈ S, i < p.length) (v : GTm → W) (x : GTm) :
    T p v x = T (minus p S) v x + ((S.sort (· ≥ ·)).map fun i => (p[i]?.map fun s => contrib s v x).getD 0).sum :=
  T_pops v x _ p S.sortedGT_sort.pairwise fun i hi => h i ((Finset.mem_sort _).1 hi)

/-- **C34 (proposed folds).**  Every fold yielded by `folds_by` has, wherever the subgoal's instances have the value
given by the definitions, the same step operator as the program. -/
theorem C34_folds_by (ho : Faithful o) {ord : List Nat → List Nat} (hord : ∀ l, (ord l).Perm l) {ops : Ops} {k : Nat} {p defs : Prog W}
    {r : WRule W} {j : Nat} {q : Tm} (h : Pre ops k ⟨[r], []⟩ defs 0 j r q) :
    ∃ res, Evt (fun f => foldsBy f o ord ops infty k p defs r j = some res) ∧
      ∀ S new, res = some (S, new) → new = fold p r S ∧ (∀ i ∈ S, i < p.rules.length) ∧
        ∀ v, (∀ θ, v (gsub θ q) = defn ops defs.rules v (gsub θ q)) → ∀ x, T new.rules v x = T p.rules v x := by
  obtain ⟨u, st, h1, h2⟩ := Unfold.C33_same_step h
  obtain ⟨a1, a2, a3, a4, a5⟩ := RuleOps.C17_align ho.lawful hord p.rules u
  set A := o.align ord p.rules u with hA
  set A' := A.filter fun a => a.2.isSome with hA'
  by_cases hall : (A'.all fun a => a.1.isSome) = true
  · refine ⟨some ((A'.filterMap Prod.fst).toFinset, fold p r (A'.filterMap Prod.fst).toFinset), h1.mono fun f e => ?_, ?_⟩
    · simp only [foldsBy, e, ← hA, ← hA', hall, if_true]
    · rintro S new he
      simp only [Option.some.injEq, Prod.mk.injEq] at he
      obtain ⟨rfl, rfl⟩ := he
      have hsub : (A'.filterMap Prod.fst).Sublist (List.range p.rules.length) := by
        rw [← a1]; exact List.filter_sublist.filterMap _
      have hnd : (A'.filterMap Prod.fst).Nodup := hsub.nodup List.nodup_range
      have hlt : ∀ i ∈ (A'.filterMap Prod.fst).toFinset, i < p.rules.length := by
        intro i hi
        rw [List.mem_toFinset] at hi
        exact List.mem_range.1 (hsub.subset hi)
      refine ⟨rfl, hlt, fun v hv x => ?_⟩
      have hu : T u v x = contrib r v x := by
        rw [h2 v hv x]; simp [T]
      rw [T_minus hlt v x]
      simp only [fold, T_cons]
      rw [add_comm]
      congr 1
      rw [← hu]
      have hperm : ((A'.filterMap Prod.fst).toFinset.sort (· ≥ ·)).Perm (A'.filterMap Prod.fst) := by
        refine (List.perm_ext_iff_of_nodup (Finset.sort_nodup _ _) hnd).2 fun i => ?_
        rw [Finset.mem_sort, List.mem_toFinset]
      rw [(hperm.map _).sum_eq]
      have hsnd : A'.filterMap Prod.snd = A.filterMap Prod.snd := by
        rw [hA', List.filterMap_filter]
        refine List.filterMap_congr fun a _ => ?_
        cases a.2 <;> simp
      have hT : T u v x = ((A'.filterMap Prod.snd).map fun i => (u[i]?.map fun s => contrib s v x).getD 0).sum := by
        rw [hsnd, (a2.map _).sum_eq, T]
        congr 1
        apply List.ext_getElem
        · simp
        · intro i h1 h2
          simp at h1
          simp [h1]
      rw [hT]
      have hpair : ∀ a ∈ A', ∃ i j s t, a = (some i, some j) ∧ p.rules[i]? = some s ∧ u[j]? = some t ∧ o.same s t = true := by
        intro a ha
        have h3 := List.all_eq_true.1 hall a ha
        rw [hA', List.mem_filter] at ha
        obtain ⟨i, hi⟩ := Option.isSome_iff_exists.1 h3
        obtain ⟨j, hj⟩ := Option.isSome_iff_exists.1 ha.2
        obtain ⟨s, t, h4, h5, h6⟩ := a4 i j (by rw [← hi, ← hj]; exact ha.1)
        exact ⟨i, j, s, t, by rw [← hi, ← hj], h4, h5, h6⟩
      clear_value A'
      clear hsub hnd hlt hperm hsnd hT hall hA'
      induction A' with
      | nil => rfl
      | cons a A' ih =>
        obtain ⟨i, j, s, t, rfl, h4, h5, h6⟩ := hpair a (by simp)
        have := ih fun b hb => hpair b (List.mem_cons_of_mem _ hb)
        simp only [List.filterMap_cons, List.map_cons, List.sum_cons, h4, h5, Option.map_some, Option.getD_some, this]
        rw [contrib_variant (ho.variant s t h6)]
  · refine ⟨none, h1.mono fun f e => ?_, by simp⟩
    simp only [foldsBy, e, ← hA, ← hA', hall]
    rfl

section least
variable {W : Type} [OSemi W] [DecidableEq W] {S' : Type} [DecidableEq S'] {o : RuleOps (WRule W) S'}

theorem rounds_congr {p q : List (WRule W)} (h : ∀ v x, T p v x = T q v x) (d : GTm → W) : ∀ n x, rounds p d n x = rounds q d n x
  | 0, _ => rfl
  | n + 1, x => by
    have : rounds p d n = rounds q d n := funext (rounds_congr h d n)
    simp only [rounds, this, h]

/-- **C34 (reversible folds, least solution).**  If `safe_by_rev` accepts, the folded program and the parent have the
same limit on every item, even if the new rule is recursive through the subgoal it introduces. -/
theorem C34_least (ho : Faithful o) {ops : Ops} {k : Nat} {p : Prog W} {r : WRule W} {S : Finset Nat} {j : Nat} {q : Tm}
    (h : Pre ops k (fold p r S) (fold p r S) 0 j r q) {d : GTm → W} (hd : Data ops p.inputs d) :
    ∃ b, Evt (fun f => safeByRev f o ops infty k p r S j = some b) ∧
      (b = true → ∀ x c, (∀ n, rounds p.rules d n x ≤ c) ↔ ∀ n, rounds (fold p r S).rules d n x ≤ c) := by
  obtain ⟨new, st, h1, h2⟩ := Unfold.C33_least h hd
  refine ⟨o.progEq false new p.rules, h1.mono fun f e => by simp only [safeByRev, e], fun hb x c => ?_⟩
  rw [h2 x c]
  exact forall_congr' fun n => by rw [rounds_congr fun v x => (progEq_T ho hb v x).symm]

end least

/-! ### The comparison up to renaming and reordering exists -/
section variantOps
variable {W : Type} [CSemi W]

theorem renLit_comp (ρ τ : Nat → Nat) (l : Lit W) : renLit τ (renLit ρ l) = renLit (fun n => τ (ρ n)) l := by
  cases l with
  | val k => rfl
  | sub t => simp only [renLit, Tm.sub_sub, sub_var]

theorem renLit_id {ρ : Nat → Nat} {l : Lit W} (h : ∀ n ∈ litVars l, ρ n = n) : renLit ρ l = l := by
  cases l with
  | val k => rfl
  | sub t =>
    simp only [renLit, Lit.sub.injEq]
    conv_rhs => rw [← sub_id t]
    exact sub_congr fun n hn => by rw [h n hn]

theorem bodyVars_perm {b c : List (Lit W)} (h : b.Perm c) : bodyVars b = bodyVars c := by
  ext n; simp only [mem_bodyVars]
  exact exists_congr fun l => and_congr_left fun _ => h.mem_iff

theorem rvars_variant {r s : WRule W} {ρ : Nat → Nat} (h2 : s.head = r.head.sub (fun n => .var (ρ n)))
    (h3 : s.body.Perm (r.body.map (renLit ρ))) : rvars s = (rvars r).image ρ := by
  rw [← rvars_renRule]
  simp only [rvars, renRule, h2, bodyVars_perm h3]

theorem WVariant.refl (r : WRule W) : WVariant r r :=
  ⟨id, fun a _ b _ h => h, by simp [sub_id], by
    rw [show r.body.map (renLit id) = r.body from by
      conv_rhs => rw [← List.map_id r.body]
      exact List.map_congr_left fun l _ => renLit_id fun _ _ => rfl]⟩

theorem WVariant.trans {r s t : WRule W} (h : WVariant r s) (h' : WVariant s t) : WVariant r t := by
  obtain ⟨ρ, h1, h2, h3⟩ := h
  obtain ⟨τ, k1, k2, k3⟩ := h'
  rw [rvars_variant h2 h3] at k1
  refine ⟨fun n => τ (ρ n), fun a ha b hb e => ?_, ?_, ?_⟩
  · exact h1 ha hb (k1 (by simp only [Finset.coe_image]; exact ⟨a, ha, rfl⟩) (by simp only [Finset.coe_image]; exact ⟨b, hb, rfl⟩) e)
  · rw [k2, h2, Tm.sub_sub]; simp only [sub_var]
  · refine k3.trans ((h3.map _).trans ?_)
    rw [List.map_map]
    exact .of_eq (List.map_congr_left fun l _ => renLit_comp ρ τ l)

theorem WVariant.symm {r s : WRule W} (h : WVariant r s) : WVariant s r := by
  obtain ⟨ρ, h1, h2, h3⟩ := h
  have hinv : ∀ n ∈ rvars r, Function.invFunOn ρ (rvars r : Set Nat) (ρ n) = n := fun n hn =>
    h1.leftInvOn_invFunOn hn
  refine ⟨Function.invFunOn ρ (rvars r), ?_, ?_, ?_⟩
  · rw [rvars_variant h2 h3]
    intro a ha b hb e
    simp only [Finset.coe_image] at ha hb
    obtain ⟨a, ha, rfl⟩ := ha
    obtain ⟨b, hb, rfl⟩ := hb
    rw [hinv a ha, hinv b hb] at e
    rw [e]
  · rw [h2, Tm.sub_sub]
    conv_lhs => rw [← sub_id r.head]
    refine sub_congr fun n hn => ?_
    rw [sub_var, hinv n (by simp [rvars, hn])]
  · refine List.Perm.symm ((h3.map _).trans ?_)
    rw [List.map_map]
    conv_rhs => rw [← List.map_id r.body]
    refine .of_eq (List.map_congr_left fun l hl => ?_)
    simp only [Function.comp, renLit_comp, id]
    exact renLit_id fun n hn => hinv n (litVars_sub_rvars hl hn)

open Classical in
/-- comparison up to renaming and reordering -/
noncomputable def variantOps : RuleOps (WRule W) Unit := ⟨fun r s => decide (WVariant r s), fun _ => (), fun _ => 0, fun _ => 0⟩

theorem variantOps_faithful : Faithful (variantOps (W := W)) :=
  ⟨⟨fun r => by simp [variantOps, WVariant.refl], fun r s h => by simp [variantOps] at *; exact h.symm,
    fun r s t h h' => by simp [variantOps] at *; exact h.trans h', fun _ _ _ => rfl⟩, fun r s h => by simpa [variantOps] using h⟩

end variantOps

/-! ### Partial safety alone does not keep the least solution -/

open Unfold (at' ltOps)

/-- identity of rules as written -/
def eqOps : RuleOps (WRule TV) Unit := ⟨fun r s => decide (r = s), fun _ => (), fun _ => 0, fun _ => 0⟩

theorem eqOps_faithful : Faithful eqOps :=
  ⟨⟨fun r => by simp [eqOps], fun r s h => by simp [eqOps] at *; exact h.symm,
    fun r s t h h' => by simp [eqOps] at *; exact h.trans h', fun _ _ _ => rfl⟩, fun r s h => by
    simp only [eqOps, decide_eq_true_eq] at h
    subst h; exact .refl r⟩

/-- `a += b.` with `b` an input -/
def selfP : Prog TV := ⟨[⟨at' "a" [], [.sub (at' "b" [])]⟩], [at' "b" []]⟩
/-- `a += a.` -/
def selfR : WRule TV := ⟨at' "a" [], [.sub (at' "a" [])]⟩

theorem selfPre : Pre ltOps 0 (fold selfP selfR {0}) selfP 0 0 selfR (at' "a" []) where
  rule := rfl
  goal := rfl
  below := by intro n hn; simp [rvars, bodyVars, litVars, selfR] at hn
  heads := by intro s hs; simp [selfP] at hs; subst hs; exact ⟨_, _, rfl, by decide, by decide⟩
  kind := ⟨_, _, rfl, by decide, by decide⟩
  notInput := by
    intro t ht θ φ h
    simp [selfP] at ht
    subst ht
    have := congrArg Subtype.val h
    simp [gsub] at this

open Classical in
/-- **C34 (why partial safety is not enough).**  Folding `a += b` by itself into `a += a` passes the `partially_safe`
check, yet `a` loses its value: the measures (C49) or `safe_by_rev` are needed for the least solution. -/
theorem C34_partial_safety_insufficient :
    partiallySafe 20 eqOps ltOps .t 0 selfP selfP selfR {0} 0 = some true ∧
    safeByRev 20 eqOps ltOps .t 0 selfP selfR {0} 0 = some false ∧
    ∃ d : GTm → TV, Data ltOps selfP.inputs d ∧ rounds selfP.rules d 2 (gsub (fun _ => g0) (at' "a" [])) = .t ∧
      ∀ n, rounds (fold selfP selfR {0}).rules d n (gsub (fun _ => g0) (at' "a" [])) = .f := by
  have hne : gsub (fun _ => g0) (at' "a" []) ≠ gsub (fun _ => g0) (at' "b" []) := by
    intro h; have := congrArg Subtype.val h; simp [gsub] at this
  have hany : ∀ θ (s : String), gsub θ (at' s []) = gsub (fun _ => g0) (at' s []) := by
    intro θ s; apply Subtype.ext; simp [gsub]
  have hcon : ∀ (s s' : String) (v : GTm → TV) x, contrib (⟨at' s [], [.sub (at' s' [])]⟩ : WRule TV) v x =
      if gsub (fun _ => g0) (at' s []) = x then v (gsub (fun _ => g0) (at' s' [])) else 0 := by
    intro s s' v x
    have hV : rvars (⟨at' s [], [.sub (at' s' [])]⟩ : WRule TV) = ∅ := by simp [rvars, bodyVars, litVars]
    rw [contrib_eq hV]
    have : Unique (Asg ∅) := ⟨⟨fun n => absurd n.2 (Finset.notMem_empty _)⟩, fun a => funext fun n => absurd n.2 (Finset.notMem_empty _)⟩
    rw [isum_unique]
    simp only [hany, bv_cons, bv_nil, lv, mul_one]
  refine ⟨by decide +kernel, by decide +kernel,
    fun x => (Unfold.bval ltOps x.1).getD (if x = gsub (fun _ => g0) (at' "b" []) then 1 else 0), ?_, ?_, ?_⟩
  · intro x
    cases h : Unfold.bval (W := TV) ltOps x.1 with
    | some b => simp only [h, Option.getD_some]
    | none =>
      intro hx
      simp only [h, Option.getD_none]
      rw [if_neg]
      intro e
      exact hx (at' "b" []) (by simp [selfP]) _ e.symm
  · have hb : Unfold.bval (W := TV) ltOps (gsub (fun _ => g0) (at' "b" [])).1 = none := by simp [gsub, Unfold.bval]
    have ha : Unfold.bval (W := TV) ltOps (gsub (fun _ => g0) (at' "a" [])).1 = none := by simp [gsub, Unfold.bval]
    simp only [rounds, selfP, T_cons, T_nil, hcon, if_true, ha, hb, hne, if_false, Option.getD_none]
    decide
  · intro n
    have ha : Unfold.bval (W := TV) ltOps (gsub (fun _ => g0) (at' "a" [])).1 = none := by simp [gsub, Unfold.bval]
    have hf : (fold selfP selfR {0}).rules = [selfR] := by decide +kernel
    rw [hf]
    induction n with
    | zero => rfl
    | succ n ih =>
      simp only [rounds, T_cons, T_nil, selfR, hcon, if_true, ha, hne, if_false, Option.getD_none] at ih ⊢
      rw [ih]; decide

section Examples

/-- folding `goal(X) += e(X,Y) * g(Y,Z)` by `f(Y) += g(Y,Z)` -/
def foldP : Prog TV := ⟨[⟨at' "goal" [.var 0], [.sub (at' "e" [.var 0, .var 1]), .sub (at' "g" [.var 1, .var 2])]⟩,
  ⟨at' "f" [.var 3], [.sub (at' "g" [.var 3, .var 4])]⟩], [at' "e" [.var 5, .var 6], at' "g" [.var 7, .var 8]]⟩
def foldR : WRule TV := ⟨at' "goal" [.var 9], [.sub (at' "e" [.var 9, .var 10]), .sub (at' "f" [.var 10])]⟩

theorem foldPre : Pre ltOps 11 (fold foldP foldR {0}) (fold foldP foldR {0}) 0 1 foldR (at' "f" [.var 10]) where
  rule := rfl
  goal := rfl
  below := by intro n hn; simp [rvars, bodyVars, litVars, foldR] at hn; omega
  heads := by
    have : (fold foldP foldR {0}).rules = [foldR, ⟨at' "f" [.var 3], [.sub (at' "g" [.var 3, .var 4])]⟩] := by decide +kernel
    rw [this]
    intro s hs
    simp at hs
    rcases hs with rfl | rfl <;> exact ⟨_, _, rfl, by decide, by decide⟩
  kind := ⟨_, _, rfl, by decide, by decide⟩
  notInput := by
    intro t ht θ φ h
    simp [fold, foldP] at ht
    have := congrArg Subtype.val h
    rcases ht with rfl | rfl <;> simp [gsub] at this

/-- the unfolded fold: the parent up to renaming -/
example : (unfold 20 ltOps .t 11 (fold foldP foldR {0}) (fold foldP foldR {0}) 0 1).map (·.1) = some [
    ⟨at' "f" [.var 3], [.sub (at' "g" [.var 3, .var 4])]⟩,
    ⟨at' "goal" [.var 13], [.sub (at' "e" [.var 13, .var 14]), .sub (at' "g" [.var 14, .var 15])]⟩] := by decide +kernel

end Examples

end Fold
end Verif
