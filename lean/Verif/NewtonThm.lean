/-
Property C60: the Newton solver.
-/
import Verif.Newton
import Verif.LinSolveThm

set_option linter.unusedSectionVars false
set_option linter.unusedSimpArgs false

namespace Verif
open Tm Heap

namespace Newton
open Solver (forEach forEach_restores forEach_cons_done RunCalls litVars ground_val value dataAt litVal instVal contrib rhs
  Safe GSub InRule Bnd noHeap good_noHeap restr restr_in restr_head Sat LitSat plus multiple instAt)
open Query
open Naive
open LinSolve (Plain)
open Sem (TV)
variable {K : Type} [CommSemiring K]

/-! ### The yields of a conjunction without builtins -/

/-- the element is a constant or an ordinary subgoal -/
def PlainLit (z : BLit K) : Prop := (∃ k, z = .val k) ∨ ∃ t, z = .sub t

/-- the variables of a conjunction -/
def ZV (zs : List (Src K × BLit K)) (n : Nat) : Prop := ∃ z ∈ zs, n ∈ litVars z.2

theorem sat_congr {zs : List (Src K × BLit K)} {vs : List K} {τ θ : Nat → Tm} (h : List.Forall₂ (Sat1 id τ) zs vs)
    (hθ : ∀ n, ZV zs n → θ n = τ n) : List.Forall₂ (Sat1 id θ) zs vs := by
  induction h with
  | nil => exact .nil
  | @cons z b zs vs h1 _ ih =>
    refine .cons ?_ (ih fun n ⟨z, hz, hn⟩ => hθ n ⟨z, by simp [hz], hn⟩)
    have hz : ∀ n ∈ litVars z.2, θ n = τ n := fun n hn => hθ n ⟨z, by simp, hn⟩
    obtain ⟨src, z⟩ := z
    cases z with
    | val k => exact h1
    | sub t => simp only [Sat1, litVars] at *; rw [sub_congr hz]; exact h1
    | eq u v =>
      simp only [Sat1, litVars, Finset.mem_union] at *
      rw [sub_congr fun n hn => hz n (.inl hn), sub_congr fun n hn => hz n (.inr hn)]; exact h1
    | cmp o u v =>
      simp only [Sat1, litVars, Finset.mem_union] at *
      rw [sub_congr fun n hn => hz n (.inl hn), sub_congr fun n hn => hz n (.inr hn)]; exact h1

theorem sat_unique {zs : List (Src K × BLit K)} (hf : ∀ p ∈ zs, Fun1 p.1) {θ : Nat → Tm} : ∀ {vs vs'},
    List.Forall₂ (Sat1 id θ) zs vs → List.Forall₂ (Sat1 id θ) zs vs' → vs = vs' := by
  induction zs with
  | nil => intro vs vs' h1 h2; cases h1; cases h2; rfl
  | cons z zs ih =>
    intro vs vs' h1 h2
    cases h1 with
    | cons a1 b1 => cases h2 with
      | cons a2 b2 =>
        rw [ih (fun p hp => hf p (by simp [hp])) b1 b2, ← srcVal_sat (hf z (by simp)) a1, ← srcVal_sat (hf z (by simp)) a2]

theorem sat_ground {zs : List (Src K × BLit K)} (hp : ∀ p ∈ zs, PlainLit p.2) (hok : ∀ p ∈ zs, p.1.Ok) {θ : Nat → Tm} {vs : List K}
    (h : List.Forall₂ (Sat1 id θ) zs vs) : ∀ n, ZV zs n → Ground (θ n) := by
  induction h with
  | nil => rintro n ⟨z, hz, _⟩; simp at hz
  | @cons z b zs vs h1 _ ih =>
    rintro n ⟨z', hz', hn⟩
    rcases List.mem_cons.1 hz' with rfl | hz'
    · obtain ⟨src, z⟩ := z'
      rcases hp (src, z) (by simp) with ⟨k, hk⟩ | ⟨t, ht⟩
      · simp only at hk; subst hk; simp [litVars] at hn
      · simp only at ht; subst ht
        have hg : Ground (t.sub θ) := (hok _ (by simp : (src, BLit.sub t) ∈ (src, BLit.sub t) :: zs)).ground _ h1
        exact Solver.ground_of_mem hg hn
    · exact ih (fun p h => hp p (by simp [h])) (fun p h => hok p (by simp [h])) n ⟨z', hz', hn⟩

/-- The yields of a conjunction of constants and subgoals bind exactly its variables, and they are the satisfying
assignments of these, each once. -/
theorem yields_plain {zs : List (Src K × BLit K)} (hp : ∀ p ∈ zs, PlainLit p.2) (hok : ∀ p ∈ zs, p.1.Ok) (hf : ∀ p ∈ zs, Fun1 p.1)
    {L : List (List K × Heap)} (hL : Yields id noHeap zs L) :
    (∀ p ∈ L, (∀ n, ZV zs n → Ground (res p.2 n)) ∧ (∀ n, ¬ ZV zs n → res p.2 n = .var n) ∧ List.Forall₂ (Sat1 id (res p.2)) zs p.1) ∧
    (∀ θ vs, List.Forall₂ (Sat1 id θ) zs vs → ∃ p ∈ L, (∀ n, ZV zs n → θ n = res p.2 n) ∧ p.1 = vs) ∧
    L.Pairwise fun p q => ∃ n, ZV zs n ∧ res p.2 n ≠ res q.2 n := by
  classical
  have hs : ∀ p ∈ L, List.Forall₂ (Sat1 id (res p.2)) zs p.1 := fun p hp => (hL.sound p hp _ (hL.good p hp).respects_res).2
  have hgr : ∀ p ∈ L, ∀ n, ZV zs n → Ground (res p.2 n) := fun p hpl => sat_ground hp hok (hs p hpl)
  have hdis : L.Pairwise fun p q => ∀ τ τ', (∀ n, ZV zs n → τ n = τ' n) → Respects p.2 τ → Respects q.2 τ' → False := by
    refine hL.disjoint.imp_of_mem ?_
    intro p q hpl hql hd τ τ' hag hτ hτ'
    have h1 := (hL.sound p hpl τ hτ).2
    have h2 := (hL.sound q hql τ' hτ').2
    exact hd (sat_unique hf h1 (sat_congr h2 hag)) τ τ' (fun z hz n hn => hag n ⟨z, hz, hn⟩) hτ hτ'
  have hsym : ∀ p ∈ L, ∀ q ∈ L, ∀ τ τ', (∀ n, ZV zs n → τ n = τ' n) → Respects p.2 τ → Respects q.2 τ' → p = q := by
    intro p hpl q hql τ τ' hag hτ hτ'
    by_contra hne
    haveI : Std.Symm fun (p q : List K × Heap) => ∀ τ τ' : Nat → Tm, (∀ n, ZV zs n → τ n = τ' n) → Respects p.2 τ → Respects q.2 τ' → False :=
      ⟨fun a b h τ τ' hag h1 h2 => h τ' τ (fun n hn => (hag n hn).symm) h2 h1⟩
    exact hdis.forall hpl hql hne τ τ' hag hτ hτ'
  refine ⟨fun p hpl => ⟨hgr p hpl, ?_, hs p hpl⟩, ?_, ?_⟩
  · intro n hn
    -- the assignment that leaves the other variables alone
    set τ : Nat → Tm := fun n => if ZV zs n then res p.2 n else .var n with hτ
    have h1 : List.Forall₂ (Sat1 id τ) zs p.1 := sat_congr (hs p hpl) fun n hn => by simp [hτ, hn]
    obtain ⟨q, hql, hq, _⟩ := hL.complete τ p.1 (Solver.respects_noHeap τ) h1
    have : p = q := hsym p hpl q hql (res p.2) τ (fun n hn => by simp [hτ, hn]) (hL.good p hpl).respects_res hq
    subst this
    have h2 := (hL.good p hpl).sub_res hq (.var n)
    simp only [sub_var] at h2
    have h3 : τ n = .var n := by simp [hτ, hn]
    rw [h3] at h2
    -- `res p.2 n` is a variable
    obtain ⟨m, hm⟩ : ∃ m, res p.2 n = .var m := by
      cases hc : res p.2 n with
      | var m => exact ⟨m, rfl⟩
      | con c => rw [hc] at h2; simp at h2
      | app as => rw [hc] at h2; simp at h2
    rw [hm] at h2 ⊢
    simp only [sub_var] at h2
    by_cases hz : ZV zs m
    · have := hgr p hpl m hz
      simp only [hτ, hz, if_true] at h2
      rw [h2] at this
      simp [Ground] at this
    · simp only [hτ, hz, if_false] at h2; exact h2
  · intro θ vs h
    obtain ⟨p, hpl, h1, h2⟩ := hL.complete θ vs (Solver.respects_noHeap θ) h
    refine ⟨p, hpl, fun n hn => ?_, h2⟩
    have := Solver.sub_eq_of_ground (hL.good p hpl) (x := .var n) (by simpa using hgr p hpl n hn) h1
    simpa using this
  · refine hdis.imp_of_mem ?_
    intro p q hpl hql hd
    by_contra hne
    simp only [not_exists, not_and, not_not] at hne
    exact hd _ _ hne (hL.good p hpl).respects_res (hL.good q hql).respects_res

/-! ### The rules of the recursive case -/

theorem plain_bnd {r : SRule K} (hp : Plain r) {n : Nat} (h : Bnd r.body n) : ∃ t, BLit.sub t ∈ r.body ∧ n ∈ vars t := by
  cases h with
  | sub h1 h2 => exact ⟨_, h1, h2⟩
  | eqr h1 _ _ => rcases hp _ h1 with ⟨k, hk⟩ | ⟨t, ht⟩ <;> simp_all
  | eql h1 _ _ => rcases hp _ h1 with ⟨k, hk⟩ | ⟨t, ht⟩ <;> simp_all

/-- what is known about a store after looking up a conjunction with the variables `V` -/
structure Binds (V : Nat → Prop) (h : Heap) : Prop where
  inn : ∀ n, V n → Ground (res h n)
  out : ∀ n, ¬ V n → res h n = .var n

theorem Binds.vars_sub {V : Nat → Prop} {h : Heap} (hb : Binds V h) {u : Tm} {n : Nat} : n ∈ vars (u.sub (res h)) ↔ n ∈ vars u ∧ ¬ V n := by
  rw [mem_vars_sub]
  constructor
  · rintro ⟨m, hm, hn⟩
    by_cases hv : V m
    · have := hb.inn m hv
      rw [Ground] at this
      rw [this] at hn; simp at hn
    · rw [hb.out m hv] at hn
      simp only [vars_var, Finset.mem_singleton] at hn
      subst hn
      exact ⟨hm, hv⟩
  · rintro ⟨hn, hv⟩
    exact ⟨n, hn, by rw [hb.out n hv]; simp⟩

/-- the rule emitted for a yield -/
noncomputable def linRule (r : SRule K) (t : Tm) (h : Heap) (c : K) : SRule K := ⟨r.head.sub (res h), [.val c, .sub (t.sub (res h))]⟩

/-- the rest of a body, looked up in one chart -/
def restOf (next : Dict Tm K) (p : List (BLit K) × BLit K × List (BLit K)) : List (Src K × BLit K) :=
  p.1.map (fun z => ((⟨next, true⟩ : Src K), z)) ++ p.2.2.map fun z => ((⟨next, true⟩ : Src K), z)

theorem sum_flatMap' {α : Type} {f : α → List K} : ∀ {L : List α}, (L.flatMap f).sum = (L.map fun a => (f a).sum).sum
  | [] => by simp
  | a :: L => by simp [sum_flatMap']

section Rec
variable {r : SRule K} (hr : Safe r) (hpl : Plain r) {next : Dict Tm K} {p : List (BLit K) × BLit K × List (BLit K)}
  (hp : p ∈ splits r.body) {t : Tm} (ht : p.2.1 = .sub t)
include hr hpl hp ht

theorem rest_mem (z : BLit K) : z ∈ r.body ↔ z = .sub t ∨ z ∈ (restOf next p).map Prod.snd := by
  rw [mem_splits hp, ht]
  simp only [restOf, List.map_append, List.map_map, Function.comp_def, List.map_id', List.mem_append, List.mem_cons]
  tauto

theorem rest_zv {n : Nat} (h : ZV (restOf next p) n) : InRule r n := by
  obtain ⟨z, hz, hn⟩ := h
  exact .inr ⟨z.2, (rest_mem hr hpl hp ht (next := next) _).2 (.inr (List.mem_map.2 ⟨z, hz, rfl⟩)), hn⟩

theorem rest_cases {n : Nat} (h : InRule r n) : n ∈ vars t ∨ ZV (restOf next p) n := by
  obtain ⟨u, hu, hn⟩ := plain_bnd hpl (hr.bnd n h)
  rcases (rest_mem hr hpl hp ht (next := next) _).1 hu with h | h
  · injection h with h; subst h; exact .inl hn
  · obtain ⟨z, hz, e⟩ := List.mem_map.1 h
    exact .inr ⟨z, hz, by rw [e]; exact hn⟩

theorem t_mem : BLit.sub t ∈ r.body := (rest_mem hr hpl hp ht (next := []) _).2 (.inl rfl)

theorem lin_inRule {hp' : Heap} (hb : Binds (ZV (restOf next p)) hp') {c : K} {n : Nat} :
    InRule (linRule r t hp' c) n ↔ InRule r n ∧ ¬ ZV (restOf next p) n := by
  constructor
  · rintro (hn | ⟨z, hz, hn⟩)
    · obtain ⟨h1, h2⟩ := hb.vars_sub.1 hn
      exact ⟨.inl h1, h2⟩
    · simp only [linRule, List.mem_cons, List.not_mem_nil, or_false] at hz
      rcases hz with rfl | rfl
      · simp [litVars] at hn
      · obtain ⟨h1, h2⟩ := hb.vars_sub.1 hn
        exact ⟨.inr ⟨_, t_mem hr hpl hp ht, h1⟩, h2⟩
  · rintro ⟨h1, h2⟩
    rcases rest_cases hr hpl hp ht (next := next) h1 with h | h
    · exact .inr ⟨.sub (t.sub (res hp')), by simp [linRule], hb.vars_sub.2 ⟨h, h2⟩⟩
    · exact absurd h h2

theorem lin_safe {hp' : Heap} (hb : Binds (ZV (restOf next p)) hp') {c : K} : Safe (linRule r t hp' c) := by
  refine ⟨fun n hn => ?_, ?_⟩
  · obtain ⟨h1, h2⟩ := (lin_inRule hr hpl hp ht hb).1 hn
    rcases rest_cases hr hpl hp ht (next := next) h1 with h | h
    · exact .sub (t := t.sub (res hp')) (by simp [linRule]) (hb.vars_sub.2 ⟨h, h2⟩)
    · exact absurd h h2
  · intro u hu
    simp only [linRule, List.mem_cons, reduceCtorEq, BLit.sub.injEq, List.not_mem_nil, or_false, false_or] at hu
    obtain ⟨c', as, rfl⟩ := hr.fn t (t_mem hr hpl hp ht)
    exact ⟨c', _, by rw [hu]; simp; rfl⟩

/-- the instance of the rule given by an instance of an emitted rule -/
noncomputable def back (V : Nat → Prop) (h : Heap) (θ : Nat → Tm) : Nat → Tm := by
  classical exact fun n => if V n then res h n else θ n

omit hr hpl hp ht in
theorem back_sub {V : Nat → Prop} {h : Heap} (hb : Binds V h) (θ : Nat → Tm) (u : Tm) : (u.sub (res h)).sub θ = u.sub (back V h θ) := by
  rw [sub_sub]
  refine sub_congr fun n _ => ?_
  simp only [back]
  split
  · rename_i hv
    exact Chart.sub_ground (hb.inn n hv) θ
  · rename_i hv
    rw [hb.out n hv]; simp

theorem back_gsub {hp' : Heap} (hb : Binds (ZV (restOf next p)) hp') {c : K} {θ : Nat → Tm} (hθ : θ ∈ GSub (linRule r t hp' c)) :
    back (ZV (restOf next p)) hp' θ ∈ GSub r := by
  refine ⟨fun n hn => ?_, fun n hn => ?_⟩
  · simp only [back]
    split
    · rename_i hv; exact hb.inn n hv
    · rename_i hv; exact hθ.1 n ((lin_inRule hr hpl hp ht hb).2 ⟨hn, hv⟩)
  · simp only [back]
    split
    · rename_i hv; exact absurd (rest_zv hr hpl hp ht hv) hn
    · exact hθ.2 n fun h => hn ((lin_inRule hr hpl hp ht hb).1 h).1

/-- The rules emitted for the yields of the rest of a body have together the contribution of the rule with the
change of one subgoal. -/
theorem rec_sum (hn : OkD next) {d : Dict Tm K} (hd : OkD d) {L : List (List K × Heap)} (hL : Yields id noHeap (restOf next p) L) (x : Tm) :
    (L.map fun q => contrib (linRule r t q.2 q.1.prod) (value d) x).sum = ∑ᶠ θ, zAt r (zsOf next next d p) x θ := by
  classical
  have hplz : ∀ q ∈ restOf next p, PlainLit q.2 := fun q hq =>
    hpl _ ((rest_mem hr hpl hp ht (next := next) _).2 (.inr (List.mem_map.2 ⟨q, hq, rfl⟩)))
  have hsrc : ∀ q ∈ restOf next p, q.1 = ⟨next, true⟩ := by
    intro q hq
    simp only [restOf, List.mem_append, List.mem_map] at hq
    rcases hq with ⟨z, _, rfl⟩ | ⟨z, _, rfl⟩ <;> rfl
  have hok : ∀ q ∈ restOf next p, q.1.Ok := fun q hq => by rw [hsrc q hq]; exact hn.src true
  have hf : ∀ q ∈ restOf next p, Fun1 q.1 := fun q hq => by rw [hsrc q hq]; exact hn.wf
  obtain ⟨h1, h2, h3⟩ := yields_plain hplz hok hf hL
  set V := ZV (restOf next p) with hV
  have hb : ∀ q ∈ L, Binds V q.2 := fun q hq => ⟨(h1 q hq).1, (h1 q hq).2.1⟩
  have hz : zsOf next next d p = ((⟨d, false⟩ : Src K), BLit.sub t) :: restOf next p := by simp [zsOf, restOf, ht]
  have hval : ∀ q ∈ L, ∀ θ ∈ GSub (linRule r t q.2 q.1.prod),
      zAt r (zsOf next next d p) x (back V q.2 θ) = instAt (linRule r t q.2 q.1.prod) (value d) x θ := by
    intro q hq θ hθ
    have hs : List.Forall₂ (Sat1 id (back V q.2 θ)) (restOf next p) q.1 := sat_congr (h1 q hq).2.2 fun n hn => by
      have : V n := hn
      simp [back, this]
    have hgb : back V q.2 θ ∈ GSub r := back_gsub hr hpl hp ht (hb q hq) hθ
    unfold zAt instAt
    simp only [hgb, hθ, true_and, hz, List.map_cons, List.prod_cons, prod_sat hf hs]
    simp only [linRule, back_sub (hb q hq), instVal, List.map_cons, List.map_nil, List.prod_cons, List.prod_nil, mul_one, litVal, srcVal]
    rw [mul_comm]
  let S : List K × Heap → Finset (Nat → Tm) := fun q =>
    if h : (Function.support (instAt (linRule r t q.2 q.1.prod) (value d) x)).Finite then h.toFinset else ∅
  have hfin : ∀ q ∈ L, (Function.support (instAt (linRule r t q.2 q.1.prod) (value d) x)).Finite := fun q hq =>
    Solver.C23_finite (lin_safe hr hpl hp ht (hb q hq)) d x
  have hS : ∀ q ∈ L, ∀ θ, θ ∈ S q ↔ instAt (linRule r t q.2 q.1.prod) (value d) x θ ≠ 0 := by
    intro q hq θ
    simp only [S, dif_pos (hfin q hq), Set.Finite.mem_toFinset, Function.mem_support]
  have hSg : ∀ q ∈ L, ∀ θ ∈ S q, θ ∈ GSub (linRule r t q.2 q.1.prod) := by
    intro q hq θ hθ
    have := (hS q hq θ).1 hθ
    unfold instAt at this
    split at this
    · rename_i h; exact h.1
    · exact absurd rfl this
  set Λ := L.flatMap fun q => (S q).toList.map (back V q.2) with hΛ
  have hnd : Λ.Nodup := by
    rw [hΛ, List.nodup_flatMap]
    refine ⟨fun q hq => List.Nodup.map_on ?_ (Finset.nodup_toList _), h3.imp_of_mem ?_⟩
    · intro θ hθ θ' hθ' e
      rw [Finset.mem_toList] at hθ hθ'
      have g1 := hSg q hq θ hθ
      have g2 := hSg q hq θ' hθ'
      funext n
      by_cases hin : InRule (linRule r t q.2 q.1.prod) n
      · have hv : ¬ V n := ((lin_inRule hr hpl hp ht (hb q hq)).1 hin).2
        have := congrFun e n
        simpa [back, hv] using this
      · rw [g1.2 n hin, g2.2 n hin]
    · rintro q q' hq hq' ⟨n, hn, hne⟩ θ hθ hθ'
      obtain ⟨θ1, _, rfl⟩ := List.mem_map.1 hθ
      obtain ⟨θ2, _, e⟩ := List.mem_map.1 hθ'
      have := congrFun e n
      have hn : V n := hn
      simp only [back, hn, if_true] at this
      exact hne this.symm
  have hsup : Function.support (zAt r (zsOf next next d p) x) ⊆ ↑Λ.toFinset := by
    intro θ hθ
    obtain ⟨⟨g, _⟩, vs, hvs⟩ := zAt_support (zsOf_mem hp) hθ
    rw [hz] at hvs
    cases hvs with
    | @cons _ b _ ws _ hw =>
      obtain ⟨q, hq, hag, hqv⟩ := h2 θ ws hw
      have hbk : back V q.2 (restr (linRule r t q.2 q.1.prod) θ) = θ := by
        funext n
        simp only [back]
        split
        · rename_i hv; exact (hag n hv).symm
        · rename_i hv
          by_cases hin : InRule r n
          · exact restr_in ((lin_inRule hr hpl hp ht (hb q hq)).2 ⟨hin, hv⟩)
          · rw [g.2 n hin]
            have : ¬ InRule (linRule r t q.2 q.1.prod) n := fun h => hin ((lin_inRule hr hpl hp ht (hb q hq)).1 h).1
            simp [restr, this]
      have hg : restr (linRule r t q.2 q.1.prod) θ ∈ GSub (linRule r t q.2 q.1.prod) :=
        ⟨fun n hn => by rw [restr_in hn]; exact g.1 n ((lin_inRule hr hpl hp ht (hb q hq)).1 hn).1, fun n hn => by simp [restr, hn]⟩
      simp only [List.coe_toFinset, Set.mem_setOf_eq, hΛ, List.mem_flatMap, List.mem_map, Finset.mem_toList]
      refine ⟨q, hq, _, (hS q hq _).2 ?_, hbk⟩
      rw [← hval q hq _ hg, hbk]
      exact hθ
  rw [finsum_eq_sum_of_support_subset _ hsup, List.sum_toFinset _ hnd, hΛ, List.map_flatMap, sum_flatMap']
  congr 1
  refine List.map_congr_left fun q hq => ?_
  unfold contrib
  rw [finsum_eq_sum_of_support_subset (s := S q) _ (by intro θ hθ; exact (hS q hq θ).2 hθ), List.map_map, ← Finset.sum_map_toList]
  congr 1
  refine List.map_congr_left fun θ hθ => ?_
  exact (hval q hq θ (hSg q hq θ (Finset.mem_toList.1 hθ))).symm

end Rec

/-! ### Emitting rules -/

/-- rules that the linear solver handles -/
def OkP (s : List (SRule K)) : Prop := ∀ r ∈ s, Safe r ∧ Plain r

/-- from `s` to `s'` the right-hand sides grow by `δ` -/
structure AddsP (s s' : List (SRule K)) (δ : Dict Tm K → Tm → K) : Prop where
  inv : OkP s → OkP s'
  tot : ∀ d, OkD d → ∀ x, rhs s' (value d) x = rhs s (value d) x + δ d x

theorem AddsP.refl (s : List (SRule K)) : AddsP s s (fun _ _ => 0) := ⟨id, by simp⟩

theorem AddsP.trans {s s' s'' : List (SRule K)} {δ δ' : Dict Tm K → Tm → K} (h : AddsP s s' δ) (h' : AddsP s' s'' δ') :
    AddsP s s'' (fun d x => δ d x + δ' d x) :=
  ⟨fun i => h'.inv (h.inv i), fun d hd x => by rw [h'.tot d hd, h.tot d hd, add_assoc]⟩

theorem AddsP.congr {s s' : List (SRule K)} {δ δ' : Dict Tm K → Tm → K} (h : AddsP s s' δ) (e : ∀ d, OkD d → ∀ x, δ d x = δ' d x) : AddsP s s' δ' :=
  ⟨h.inv, fun d hd x => by rw [h.tot d hd, e d hd]⟩

theorem calls_addsP {α : Type} {k : α → Body (List (SRule K))} {δ : α × Heap → Dict Tm K → Tm → K} {L : List (α × Heap)} {s s' : List (SRule K)}
    (h : RunCalls k L s s') (hk : ∀ p ∈ L, ∀ s s', k p.1 p.2 s = some (p.2, s', .done) → AddsP s s' (δ p)) :
    AddsP s s' (fun d x => (L.map fun p => δ p d x).sum) := by
  induction h with
  | nil => simpa using AddsP.refl _
  | cons e _ ih =>
    have h1 := hk _ List.mem_cons_self _ _ e
    have h2 := ih fun p hp => hk p (by simp [hp])
    simpa using h1.trans h2

theorem forEach_addsP {α : Type} {b : α → Body (List (SRule K))} {δ : α → Dict Tm K → Tm → K} {h : Heap} :
    ∀ {l : List α} {s h' s'}, (∀ a ∈ l, Restores (b a)) → (∀ a ∈ l, ∀ s s', b a h s = some (h, s', .done) → AddsP s s' (δ a)) →
      forEach l b h s = some (h', s', .done) → AddsP s s' (fun d x => (l.map fun a => δ a d x).sum) := by
  intro l
  induction l with
  | nil =>
    intro s h' s' _ _ e
    simp only [forEach, Option.some.injEq, Prod.mk.injEq, and_true] at e
    obtain ⟨_, rfl⟩ := e
    simpa using AddsP.refl _
  | cons a l ih =>
    intro s h' s' hb hl e
    obtain ⟨h1, s1, e1, e2⟩ := forEach_cons_done e
    have := hb a (by simp) _ _ _ _ _ e1
    subst this
    have a1 := hl a (by simp) _ _ e1
    have a2 := ih (fun a ha => hb a (by simp [ha])) (fun b hb => hl b (by simp [hb])) e2
    simpa using a1.trans a2

theorem rhs_snoc (s : List (SRule K)) (r : SRule K) (v : Tm → K) (x : Tm) : rhs (s ++ [r]) v x = rhs s v x + contrib r v x := by simp [rhs]

theorem inRule_val {x : Tm} {c : K} {z : BLit K} {n : Nat} : InRule (⟨x, [.val c, z]⟩ : SRule K) n ↔ InRule (⟨x, [z]⟩ : SRule K) n := by
  simp [InRule, Solver.InBody, litVars]

theorem contrib_one (x : Tm) (z : BLit K) (v : Tm → K) (y : Tm) : contrib (⟨x, [.val 1, z]⟩ : SRule K) v y = contrib ⟨x, [z]⟩ v y := by
  unfold contrib
  refine finsum_congr fun θ => ?_
  have hG : GSub (⟨x, [.val 1, z]⟩ : SRule K) = GSub ⟨x, [z]⟩ := by
    ext θ
    constructor
    · exact fun h => ⟨fun n hn => h.1 n (inRule_val.2 hn), fun n hn => h.2 n fun h => hn (inRule_val.1 h)⟩
    · exact fun h => ⟨fun n hn => h.1 n (inRule_val.1 hn), fun n hn => h.2 n fun h => hn (inRule_val.2 h)⟩
  have hV : instVal v [BLit.val 1, z] θ = instVal v [z] θ := by simp [instVal, litVal]
  have hM : θ ∈ GSub (⟨x, [.val 1, z]⟩ : SRule K) ↔ θ ∈ GSub ⟨x, [z]⟩ := by rw [hG]
  unfold instAt
  by_cases h : θ ∈ GSub (⟨x, [.val 1, z]⟩ : SRule K) ∧ x.sub θ = y
  · rw [if_pos h, if_pos ⟨hM.1 h.1, h.2⟩, hV]
  · rw [if_neg h, if_neg fun h' => h ⟨hM.2 h'.1, h'.2⟩]

theorem contrib_zero (x : Tm) (z : BLit K) (v : Tm → K) (y : Tm) : contrib (⟨x, [.val 0, z]⟩ : SRule K) v y = 0 := by
  unfold contrib
  rw [← finsum_zero (α := Nat → Tm)]
  refine finsum_congr fun θ => ?_
  unfold instAt
  simp [instVal, litVal]

theorem contrib_const {x : Tm} (hx : Ground x) (c : K) (v : Tm → K) (y : Tm) : contrib (⟨x, [.val c]⟩ : SRule K) v y = if x = y then c else 0 := by
  classical
  have hin : ∀ n, ¬ InRule (⟨x, [.val c]⟩ : SRule K) n := by
    rintro n (hn | ⟨z, hz, hn⟩)
    · rw [Ground] at hx; rw [hx] at hn; simp at hn
    · simp only [List.mem_singleton] at hz; subst hz; simp [litVars] at hn
  have hg : ∀ θ, θ ∈ GSub (⟨x, [.val c]⟩ : SRule K) ↔ θ = Tm.var := by
    intro θ
    constructor
    · intro h; funext n; exact h.2 n (hin n)
    · rintro rfl; exact ⟨fun n hn => absurd hn (hin n), fun n _ => rfl⟩
  unfold contrib
  rw [finsum_eq_single _ Tm.var (by
    intro θ hθ
    unfold instAt
    rw [if_neg]
    rintro ⟨h, _⟩
    exact hθ ((hg θ).1 h))]
  unfold instAt
  simp only [(hg _).2 rfl, true_and, Chart.sub_ground hx, instVal, litVal, List.map_cons, List.map_nil, List.prod_cons, List.prod_nil, mul_one]

theorem const_ok {x : Tm} (hx : Ground x) (c : K) : Safe (⟨x, [.val c]⟩ : SRule K) ∧ Plain (⟨x, [.val c]⟩ : SRule K) := by
  refine ⟨⟨?_, by simp⟩, by simp [Plain]⟩
  rintro n (hn | ⟨z, hz, hn⟩)
  · rw [Ground] at hx; rw [hx] at hn; simp at hn
  · simp only [List.mem_singleton] at hz; subst hz; simp [litVars] at hn

theorem mergeConst_adds {x : Tm} (hx : Ground x) (c : K) : ∀ s : List (SRule K), AddsP s (mergeConst x c s) (fun _ y => if x = y then c else 0) := by
  intro s
  induction s with
  | nil =>
    refine ⟨fun _ r hr => ?_, fun d _ y => ?_⟩
    · simp only [mergeConst, List.mem_singleton] at hr; subst hr; exact const_ok hx c
    · simp [mergeConst, rhs, contrib_const hx]
  | cons r l ih =>
    have hgo : AddsP (r :: l) (r :: mergeConst x c l) (fun _ y => if x = y then c else 0) := by
      refine ⟨fun h r' hr' => ?_, fun d hd y => ?_⟩
      · rcases List.mem_cons.1 hr' with rfl | hr'
        · exact h _ (by simp)
        · exact ih.inv (fun r hr => h r (by simp [hr])) _ hr'
      · have := ih.tot d hd y
        simp only [rhs, List.map_cons, List.sum_cons] at this ⊢
        rw [this, add_assoc]
    unfold mergeConst
    split
    · rename_i s hb
      split
      · rename_i he
        refine ⟨fun h r' hr' => ?_, fun d hd y => ?_⟩
        · rcases List.mem_cons.1 hr' with rfl | hr'
          · exact const_ok hx _
          · exact h _ (by simp [hr'])
        · have hrr : r = ⟨x, [.val s]⟩ := by cases r; simp_all
          simp only [rhs, List.map_cons, List.sum_cons]
          rw [hrr, contrib_const hx, contrib_const hx]
          split <;> ring
      · exact hgo
    · exact hgo

theorem dropped_one {r : SRule K} (hr : Safe r) (hpl : Plain r) {next : Dict Tm K} {p : List (BLit K) × BLit K × List (BLit K)}
    (hp : p ∈ splits r.body) {t : Tm} (ht : p.2.1 = .sub t) {h : Heap} (hb : Binds (ZV (restOf next p)) h) {inf m : K} {f : Nat}
    (e : dropped inf f h r (.sub t) = some m) : m = 1 := by
  unfold dropped at e
  split at e
  · rename_i b a eb ea
    simp only [Option.some.injEq] at e
    rw [if_pos] at e
    · exact e.symm
    · intro n hn
      rw [deref_eq_sub eb, hb.vars_sub] at hn
      rw [deref_eq_sub ea, hb.vars_sub]
      refine ⟨?_, hn.2⟩
      have hin : InRule r n := by
        obtain ⟨hn, _⟩ := hn
        simp only [vars_app, mem_varsL, List.mem_flatMap] at hn
        obtain ⟨u, ⟨z, hz, hu⟩, hn⟩ := hn
        refine .inr ⟨z, hz, ?_⟩
        rcases hpl z hz with ⟨k, rfl⟩ | ⟨t', rfl⟩
        · simp [Solver.litTerms] at hu
        · simp [Solver.litTerms] at hu; subst hu; exact hn
      rcases rest_cases hr hpl hp ht (next := next) hin with h | h
      · simp only [Solver.litTerms, vars_app, mem_varsL]; exact ⟨t, by simp, h⟩
      · exact absurd h hn.2
  · simp at e

theorem emitRec_restores {g : Cfg K} {one? : K → Bool} {f : Nat} {r : SRule K} {y : BLit K} {P : List K} : Restores (emitRec g one? f r y P) := by
  intro h s h' s' sig e
  unfold emitRec at e
  split at e
  · simp only at e
    split at e
    · simp at e; exact e.1.symm
    · split at e <;> (simp at e; exact e.1.symm)
  · simp at e

theorem emitBase_restores {g : Cfg K} {f : Nat} {r : SRule K} {P : List K} : Restores (emitBase g f r P) := by
  intro h s h' s' sig e
  unfold emitBase at e
  split at e
  · simp only at e
    split at e <;> (simp at e; exact e.1.symm)
  · simp at e; exact e.1.symm
  · simp at e

theorem emitRec_adds {g : Cfg K} (hd : ∀ c, g.dead c = true → c = 0) {one? : K → Bool} (h1 : ∀ c, one? c = true → c = 1) {f : Nat} {r : SRule K}
    (hr : Safe r) (hpl : Plain r) {next : Dict Tm K} {p : List (BLit K) × BLit K × List (BLit K)} (hp : p ∈ splits r.body) {t : Tm}
    (ht : p.2.1 = .sub t) {h : Heap} (hb : Binds (ZV (restOf next p)) h) {P : List K} {s h' s'}
    (e : emitRec g one? f r (.sub t) P h s = some (h', s', .done)) :
    AddsP s s' (fun d x => contrib (linRule r t h P.prod) (value d) x) := by
  have hok : Safe (linRule r t h P.prod) := lin_safe hr hpl hp ht hb
  unfold emitRec at e
  split at e
  · rename_i m x y em ex ey
    have hm := dropped_one hr hpl hp ht hb em
    subst hm
    simp only [derefLit, Option.map_eq_some_iff] at ey
    obtain ⟨t', et, rfl⟩ := ey
    have hx := deref_eq_sub ex
    have ht' := deref_eq_sub et
    subst hx ht'
    simp only [mul_one] at e
    rw [← List.prod_eq_foldl] at e
    split at e
    · rename_i hdead
      simp only [Option.some.injEq, Prod.mk.injEq, and_true] at e
      obtain ⟨_, rfl⟩ := e
      refine (AddsP.refl s).congr fun d _ y => ?_
      unfold linRule
      rw [hd _ hdead, contrib_zero]
    · split at e
      · rename_i hone
        simp only [Option.some.injEq, Prod.mk.injEq, and_true] at e
        obtain ⟨_, rfl⟩ := e
        refine ⟨fun h r' hr' => ?_, fun d _ y => ?_⟩
        · rcases List.mem_append.1 hr' with hr' | hr'
          · exact h _ hr'
          · simp only [List.mem_singleton] at hr'; subst hr'
            refine ⟨⟨fun n hn => ?_, fun u hu => hok.fn u ?_⟩, ?_⟩
            · have := plain_bnd (r := linRule r t _ P.prod) (by simp [linRule, Plain]) (hok.bnd n (inRule_val.2 hn))
              obtain ⟨u, hu, hn⟩ := this
              refine .sub (t := u) ?_ hn
              simpa [linRule] using hu
            · simp only [List.mem_singleton] at hu; simp [linRule, hu]
            · simp [Plain]
        · rw [rhs_snoc]
          unfold linRule
          rw [h1 _ hone, contrib_one]
      · simp only [Option.some.injEq, Prod.mk.injEq, and_true] at e
        obtain ⟨_, rfl⟩ := e
        refine ⟨fun h r' hr' => ?_, fun d _ y => ?_⟩
        · rcases List.mem_append.1 hr' with hr' | hr'
          · exact h _ hr'
          · simp only [List.mem_singleton] at hr'; subst hr'
            exact ⟨hok, by simp [Plain]⟩
        · rw [rhs_snoc]; rfl
  · simp at e

theorem emitBase_adds {g : Cfg K} (hd : ∀ c, g.dead c = true → c = 0) {f : Nat} {r : SRule K} {P : List K} {h : Heap} (hg : Good h)
    (hn : ∀ n, InRule r n → Ground (res h n)) {s h' s'} (e : emitBase g f r P h s = some (h', s', .done)) :
    AddsP s s' (fun _ x => if r.head.sub (res h) = x then P.prod else 0) := by
  unfold emitBase at e
  split at e
  · rename_i m x em eg ed
    have hm := multiple_ground hn em
    subst hm
    have hx := deref_eq_sub ed
    have hgr := (ground_val hg eg).1 rfl
    rw [← hx] at hgr ⊢
    simp only [mul_one] at e
    rw [← List.prod_eq_foldl] at e
    split at e
    · rename_i hdead
      simp only [Option.some.injEq, Prod.mk.injEq, and_true] at e
      obtain ⟨_, rfl⟩ := e
      refine (AddsP.refl s).congr fun d _ y => ?_
      rw [hd _ hdead]; simp
    · simp only [Option.some.injEq, Prod.mk.injEq, and_true] at e
      obtain ⟨_, rfl⟩ := e
      exact mergeConst_adds hgr _ s
  · simp at e
  · simp at e

/-! ### Streams -/

/-- `m` runs its continuation with the results (arranged by `φ`) for the yields of the conjunction `zs` -/
structure Lk (zs : List (Src K × BLit K)) (φ : List K → List K) (m : (List K → Body (List (SRule K))) → Body (List (SRule K))) : Prop where
  rest : ∀ k, (∀ P, Restores (k P)) → Restores (m k)
  spec : ∀ k, (∀ P, Restores (k P)) → ∀ h s h' s', Good h → m k h s = some (h', s', .done) →
    ∃ L, Yields id h zs L ∧ RunCalls (fun vs => k (φ vs)) L s s'
  prod : ∀ vs, vs.length = zs.length → (φ vs).prod = vs.prod

theorem lk_get {f : Nat} {src : Src K} (hs : src.Ok) {b : List (BLit K)} (hb : ∀ z ∈ b, FnOk z) :
    Lk (b.map fun z => (src, z)) (pad id b) (fun k => getItem f id src b k) :=
  ⟨fun _ hk => getItem_restores hk, fun _ hk _ _ _ _ hg e => getItem_spec hs hb hk hg e, fun _ hl => pad_prod (by simpa using hl)⟩

theorem lk_lookup {f : Nat} {src : Src K} (hs : src.Ok) {z : BLit K} (hz : FnOk z) :
    Lk [(src, z)] id (fun k => lookupVals f id src z fun b => k [b]) := by
  refine ⟨fun k hk => lookupVals_restores fun b => hk [b], fun k hk h s h' s' hg e => ?_, fun _ _ => rfl⟩
  obtain ⟨L, hL, hr⟩ := lookup_spec hs hz (fun b => hk [b]) hg e
  exact ⟨_, hL.list, Solver.RunCalls.map (k := k) (g := fun b => [b]) hr⟩

theorem Lk.bind {zs zs' : List (Src K × BLit K)} {φ ψ : List K → List K} {m m' : (List K → Body (List (SRule K))) → Body (List (SRule K))}
    (h : Lk zs φ m) (h' : Lk zs' ψ m') :
    Lk (zs ++ zs') (fun vs => φ (vs.take zs.length) ++ ψ (vs.drop zs.length)) (fun k => m fun a => m' fun b => k (a ++ b)) := by
  refine ⟨fun k hk => h.rest _ fun a => h'.rest _ fun b => hk _, fun k hk hp s hp' s' hg e => ?_, fun vs hl => ?_⟩
  · obtain ⟨L, hL, hr⟩ := h.spec _ (fun a => h'.rest _ fun b => hk _) _ _ _ _ hg e
    exact yields_bind (k := fun a b => k (φ a ++ ψ b)) (zs' := zs') (inner := fun a => m' fun b => k (φ a ++ b)) (by
      intro a h1 s s1 g1 e1
      exact h'.spec _ (fun b => hk _) _ _ _ _ g1 e1) L s s' hL hr
  · simp only [List.length_append] at hl
    rw [List.prod_append, h.prod _ (by simp; omega), h'.prod _ (by simp; omega), ← List.prod_append, List.take_append_drop]

/-- from the stream of a conjunction with all of the body to the sum over the instances -/
theorem base_adds {g : Cfg K} (hd : ∀ c, g.dead c = true → c = 0) {f : Nat} {r : SRule K} (hr : Safe r) {zs : List (Src K × BLit K)}
    (hmem : ∀ z, z ∈ r.body ↔ z ∈ zs.map Prod.snd) (hok : ∀ q ∈ zs, q.1.Ok) (hf : ∀ q ∈ zs, Fun1 q.1) {φ m} (hm : Lk zs φ m) {s h' s'}
    (e : m (emitBase g f r) noHeap s = some (h', s', .done)) : AddsP s s' (fun _ x => ∑ᶠ θ, zAt r zs x θ) := by
  obtain ⟨L, hL, hrun⟩ := hm.spec _ (fun _ => emitBase_restores) _ _ _ _ good_noHeap e
  have := calls_addsP (δ := fun p _ x => if r.head.sub (res p.2) = x then p.1.prod else 0) hrun (by
    intro q hq s s' e
    have hs := (hL.sound q hq _ (hL.good q hq).respects_res).2
    have h1 := emitBase_adds hd (hL.good q hq) (fun n hn => yield_ground hr hmem hok hs hn) e
    rwa [hm.prod _ hs.length_eq.symm] at h1)
  exact this.congr fun d _ x => yields_sumD hr hmem hok hf hL x

/-- the same for the recursive case -/
theorem rec_adds {g : Cfg K} (hd : ∀ c, g.dead c = true → c = 0) {one? : K → Bool} (h1 : ∀ c, one? c = true → c = 1) {f : Nat} {r : SRule K}
    (hr : Safe r) (hpl : Plain r) {next : Dict Tm K} (hn : OkD next) {p : List (BLit K) × BLit K × List (BLit K)} (hp : p ∈ splits r.body)
    {t : Tm} (ht : p.2.1 = .sub t) {φ m} (hm : Lk (restOf next p) φ m) {s h' s'}
    (e : m (emitRec g one? f r (.sub t)) noHeap s = some (h', s', .done)) : AddsP s s' (fun d x => ∑ᶠ θ, zAt r (zsOf next next d p) x θ) := by
  obtain ⟨L, hL, hrun⟩ := hm.spec _ (fun _ => emitRec_restores) _ _ _ _ good_noHeap e
  have hplz : ∀ q ∈ restOf next p, PlainLit q.2 := fun q hq =>
    hpl _ ((rest_mem hr hpl hp ht (next := next) _).2 (.inr (List.mem_map.2 ⟨q, hq, rfl⟩)))
  have hsrc : ∀ q ∈ restOf next p, q.1 = ⟨next, true⟩ := by
    intro q hq
    simp only [restOf, List.mem_append, List.mem_map] at hq
    rcases hq with ⟨z, _, rfl⟩ | ⟨z, _, rfl⟩ <;> rfl
  have hok : ∀ q ∈ restOf next p, q.1.Ok := fun q hq => by rw [hsrc q hq]; exact hn.src true
  have hf : ∀ q ∈ restOf next p, Fun1 q.1 := fun q hq => by rw [hsrc q hq]; exact hn.wf
  obtain ⟨y1, _, _⟩ := yields_plain hplz hok hf hL
  have := calls_addsP (δ := fun q d x => contrib (linRule r t q.2 q.1.prod) (value d) x) hrun (by
    intro q hq s s' e
    have hb : Binds (ZV (restOf next p)) q.2 := ⟨(y1 q hq).1, (y1 q hq).2.1⟩
    have h2 := emitRec_adds hd h1 hr hpl hp ht hb e
    rwa [hm.prod _ (y1 q hq).2.2.length_eq.symm] at h2)
  exact this.congr fun d hdd x => rec_sum hr hpl hp ht hn hdd hL x

/-! ### The linearization -/

/-- the charts consulted in the base case for two chosen elements -/
def zs5 (chart change next : Dict Tm K) (q : List (BLit K) × BLit K × List (BLit K) × BLit K × List (BLit K)) : List (Src K × BLit K) :=
  q.1.map (fun z => ((⟨next, true⟩ : Src K), z)) ++ ([((⟨change, false⟩ : Src K), q.2.1)] ++ (q.2.2.1.map (fun z => ((⟨chart, true⟩ : Src K), z)) ++
    ([((⟨change, false⟩ : Src K), q.2.2.2.1)] ++ q.2.2.2.2.map fun z => ((⟨chart, true⟩ : Src K), z))))

theorem mem_splits2 {α : Type} {l : List α} {q : List α × α × List α × α × List α} (h : q ∈ splits2 l) :
    l = q.1 ++ q.2.1 :: (q.2.2.1 ++ q.2.2.2.1 :: q.2.2.2.2) := by
  simp only [splits2, List.mem_flatMap, List.mem_map] at h
  obtain ⟨p, hp, p', hp', rfl⟩ := h
  simp only
  rw [← mem_splits hp', ← mem_splits hp]

theorem zs5_mem {chart change next : Dict Tm K} {body : List (BLit K)} {q} (hq : q ∈ splits2 body) (z : BLit K) :
    z ∈ body ↔ z ∈ (zs5 chart change next q).map Prod.snd := by
  rw [mem_splits2 hq]
  simp only [zs5, List.map_cons, List.map_nil, List.map_append, List.map_map, Function.comp_def, List.map_id', List.mem_append, List.mem_cons,
    List.mem_singleton]
  simp

theorem zs5_all {P : Src K → Prop} {chart change next : Dict Tm K} {q} (h1 : P ⟨change, false⟩) (h2 : P ⟨next, true⟩) (h3 : P ⟨chart, true⟩) :
    ∀ z ∈ zs5 chart change next q, P z.1 := by
  intro z hz
  simp only [zs5, List.mem_append, List.mem_map, List.mem_singleton] at hz
  rcases hz with ⟨z, _, rfl⟩ | rfl | ⟨z, _, rfl⟩ | rfl | ⟨z, _, rfl⟩ <;> assumption

/-- the value of a conjunction at an instance -/
def zProd (zs : List (Src K × BLit K)) (θ : Nat → Tm) : K := (zs.map fun p => srcVal p.1 θ p.2).prod

/-- the linear part of the change at `next`, applied to `d` -/
noncomputable def Lin (rules : List (SRule K)) (next d : Dict Tm K) (x : Tm) : K :=
  (rules.map fun r => ((splits r.body).map fun p => ∑ᶠ θ, zAt r (zsOf next next d p) x θ).sum).sum

/-- the rest of the change -/
noncomputable def Quad (rules : List (SRule K)) (chart change next : Dict Tm K) (x : Tm) : K :=
  (rules.map fun r => ((splits2 r.body).map fun q => ∑ᶠ θ, zAt r (zs5 chart change next q) x θ).sum).sum

theorem zAt_zero {r : SRule K} {zs : List (Src K × BLit K)} {z : Src K × BLit K} (hz : z ∈ zs) (h0 : ∀ θ, srcVal z.1 θ z.2 = 0) (x : Tm) :
    ∑ᶠ θ, zAt r zs x θ = 0 := by
  rw [← finsum_zero (α := Nat → Tm)]
  refine finsum_congr fun θ => ?_
  unfold zAt
  split
  · exact List.prod_eq_zero (List.mem_map.2 ⟨z, hz, h0 θ⟩)
  · rfl

theorem sum_filter {α : Type} {f : α → K} {b : α → Bool} : ∀ {l : List α}, (∀ a ∈ l, b a = false → f a = 0) → ((l.filter b).map f).sum = (l.map f).sum
  | [], _ => by simp
  | a :: l, h => by
    have ih := sum_filter (l := l) (f := f) (b := b) fun a ha => h a (by simp [ha])
    cases hb : b a
    · simp [List.filter_cons, hb, ih, h a (by simp) hb]
    · simp [List.filter_cons, hb, ih]

theorem isConst_iff {z : BLit K} : isConst z = true ↔ ∃ k, z = .val k := by cases z <;> simp [isConst]

theorem srcVal_isConst {d : Dict Tm K} {z : BLit K} (h : isConst z = true) (θ : Nat → Tm) : srcVal ⟨d, false⟩ θ z = 0 := by
  obtain ⟨k, rfl⟩ := isConst_iff.1 h
  simp [srcVal]

theorem rec_lk {r : SRule K} (hr : Safe r) {f : Nat} {next : Dict Tm K} (hn : OkD next) {p} (hp : p ∈ splits r.body) :
    ∃ φ, Lk (restOf next p) φ (fun k => getItem f id ⟨next, true⟩ p.1 fun L => getItem f id ⟨next, true⟩ p.2.2 fun R => k (L ++ R)) := by
  obtain ⟨_, f2, f3⟩ := split_fn hr hp
  exact ⟨_, (lk_get (hn.src true) f2).bind (lk_get (hn.src true) f3)⟩

theorem base_lk {r : SRule K} (hr : Safe r) {f : Nat} {chart change next : Dict Tm K} (ho : OkD chart) (hd : OkD change) (hn : OkD next) {q}
    (hq : q ∈ splits2 r.body) :
    ∃ φ, Lk (zs5 chart change next q) φ (fun k => getItem f id ⟨next, true⟩ q.1 fun A => lookupVals f id ⟨change, false⟩ q.2.1 fun b =>
      getItem f id ⟨chart, true⟩ q.2.2.1 fun C => lookupVals f id ⟨change, false⟩ q.2.2.2.1 fun d =>
        getItem f id ⟨chart, true⟩ q.2.2.2.2 fun E => k (A ++ ([b] ++ (C ++ ([d] ++ E))))) := by
  have hfn := safe_fn hr
  rw [mem_splits2 hq] at hfn
  exact ⟨_, (lk_get (hn.src true) fun z hz => hfn z (by simp [hz])).bind <| (lk_lookup (hd.src false) (hfn _ (by simp))).bind <|
    (lk_get (ho.src true) fun z hz => hfn z (by simp [hz])).bind <| (lk_lookup (hd.src false) (hfn _ (by simp))).bind <|
    lk_get (ho.src true) fun z hz => hfn z (by simp [hz])⟩

theorem restores_mem {α S : Type} {b : α → Body S} {l : List α} (hb : ∀ a ∈ l, Restores (b a)) : Restores (forEach l b) := by
  induction l with
  | nil => intro h s h' s' sig e; simp [forEach] at e; exact e.1.symm
  | cons a l ih =>
    intro h s h' s' sig e
    simp only [forEach] at e
    cases hq : b a h s with
    | none => simp [hq] at e
    | some q =>
      obtain ⟨h1, s1, sg⟩ := q
      have := hb a (by simp) _ _ _ _ _ hq
      subst this
      simp only [hq] at e
      cases sg with
      | done => exact ih (fun a ha => hb a (by simp [ha])) _ _ _ _ _ e
      | brk => simp at e; exact e.1.symm
      | exc n => simp at e; exact e.1.symm

theorem recCase_restores {g : Cfg K} {one? : K → Bool} {f : Nat} {next : Dict Tm K} {r : SRule K} : Restores (recCase g one? f next r) :=
  forEach_restores (fun _ => getItem_restores fun _ => getItem_restores fun _ => emitRec_restores) _

theorem baseCase_restores {g : Cfg K} {f : Nat} {chart change next : Dict Tm K} {r : SRule K} : Restores (baseCase g f chart change next r) :=
  forEach_restores (fun _ => getItem_restores fun _ => lookupVals_restores fun _ => getItem_restores fun _ => lookupVals_restores fun _ =>
    getItem_restores fun _ => emitBase_restores) _

/-- The next linear program: its right-hand sides are those of the linearization at `next`, plus the part of the
change that is not linear. -/
theorem linearized_adds {g : Cfg K} (hd : ∀ c, g.dead c = true → c = 0) {one? : K → Bool} (h1 : ∀ c, one? c = true → c = 1)
    (hr : ∀ r ∈ g.rules, Safe r ∧ Plain r) {f : Nat} {chart change next : Dict Tm K} (ho : OkD chart) (hc : OkD change) (hn : OkD next) {cp}
    (e : linearized g one? f chart change next = some (cp, .done)) :
    OkP cp ∧ ∀ d, OkD d → ∀ x, rhs cp (value d) x = Quad g.rules chart change next x + Lin g.rules next d x := by
  unfold linearized at e
  rw [Option.map_eq_some_iff] at e
  obtain ⟨⟨h', q', sig⟩, e, e2⟩ := e
  simp only [Prod.mk.injEq] at e2
  obtain ⟨rfl, rfl⟩ := e2
  have := forEach_addsP (δ := fun r d x => ((splits r.body).map fun p => ∑ᶠ θ, zAt r (zsOf next next d p) x θ).sum +
      ((splits2 r.body).map fun q => ∑ᶠ θ, zAt r (zs5 chart change next q) x θ).sum) (by
      intro r _ 
      have : ∀ b ∈ [recCase g one? f next r, baseCase g f chart change next r], Restores b := by
        intro b hb
        simp only [List.mem_cons, List.not_mem_nil, or_false] at hb
        rcases hb with rfl | rfl
        · exact recCase_restores
        · exact baseCase_restores
      exact restores_mem this) (by
    intro r hrm s s' e
    obtain ⟨hs, hpl⟩ := hr r hrm
    obtain ⟨h2, s1, e1, e1'⟩ := forEach_cons_done e
    have := recCase_restores _ _ _ _ _ e1
    subst this
    obtain ⟨h3, s2, e2, e3⟩ := forEach_cons_done e1'
    have := baseCase_restores _ _ _ _ _ e2
    subst this
    simp only [forEach, Option.some.injEq, Prod.mk.injEq, true_and, and_true] at e3
    subst e3
    unfold recCase at e1
    unfold baseCase at e2
    have a1 := forEach_addsP (δ := fun p d x => ∑ᶠ θ, zAt r (zsOf next next d p) x θ)
      (fun _ _ => getItem_restores fun _ => getItem_restores fun _ => emitRec_restores) (by
        intro p hp s s' e
        rw [List.mem_filter] at hp
        obtain ⟨φ, hlk⟩ := rec_lk hs (f := f) hn hp.1
        have hz : p.2.1 ∈ r.body := by rw [mem_splits hp.1]; simp
        rcases hpl _ hz with ⟨k, hk⟩ | ⟨t, ht⟩
        · rw [hk] at hp; simp [isConst] at hp
        · rw [ht] at e
          exact rec_adds hd h1 hs hpl hn hp.1 ht hlk e) e1
    have a2 := forEach_addsP (δ := fun q _ x => ∑ᶠ θ, zAt r (zs5 chart change next q) x θ)
      (fun _ _ => getItem_restores fun _ => lookupVals_restores fun _ => getItem_restores fun _ => lookupVals_restores fun _ =>
        getItem_restores fun _ => emitBase_restores) (by
        intro q hq s s' e
        rw [List.mem_filter] at hq
        obtain ⟨φ, hlk⟩ := base_lk hs (f := f) ho hc hn hq.1
        exact base_adds hd hs (zs5_mem hq.1) (zs5_all (P := Src.Ok) (hc.src _) (hn.src _) (ho.src _))
          (zs5_all (P := Fun1) hc.wf hn.wf ho.wf) hlk e) e2
    refine (a1.trans a2).congr fun d _ x => ?_
    rw [sum_filter, sum_filter]
    · intro q hq hb
      simp only [Bool.and_eq_false_iff, Bool.not_eq_false'] at hb
      rcases hb with hb | hb
      · exact zAt_zero (z := (⟨change, false⟩, q.2.1)) (by simp [zs5]) (srcVal_isConst hb) x
      · exact zAt_zero (z := (⟨change, false⟩, q.2.2.2.1)) (by simp [zs5]) (srcVal_isConst hb) x
    · intro p hp hb
      simp only [Bool.not_eq_false'] at hb
      exact zAt_zero (z := (⟨d, false⟩, p.2.1)) (by simp [zsOf]) (srcVal_isConst hb) x) e
  refine ⟨this.inv (by intro r hr; simp at hr), fun d hdd x => ?_⟩
  rw [this.tot d hdd]
  simp only [rhs, List.map_nil, List.sum_nil, zero_add, Lin, Quad, List.sum_map_add]
  rw [add_comm]

/-! ### The identity of the linearization -/

theorem zs5_prod {chart change next : Dict Tm K} {q} {θ : Nat → Tm} :
    ((zs5 chart change next q).map fun p => srcVal p.1 θ p.2).prod = instVal (value next) q.1 θ * (srcVal ⟨change, false⟩ θ q.2.1 *
      (instVal (value chart) q.2.2.1 θ * srcVal ⟨change, false⟩ θ q.2.2.2.1 * instVal (value chart) q.2.2.2.2 θ)) := by
  simp only [zs5, List.map_append, List.prod_append, List.map_cons, List.map_nil, List.prod_cons, List.prod_nil]
  rw [prod_true, prod_true, prod_true]
  ring

theorem inst_lin {old new d : Dict Tm K} (hv : ∀ x, value new x = value old x + value d x) {θ : Nat → Tm} : ∀ body : List (BLit K),
    instVal (value new) body θ = instVal (value old) body θ +
      ((splits body).map fun p => instVal (value old) p.1 θ * srcVal ⟨d, false⟩ θ p.2.1 * instVal (value old) p.2.2 θ).sum +
      ((splits2 body).map fun q => instVal (value new) q.1 θ * (srcVal ⟨d, false⟩ θ q.2.1 *
        (instVal (value old) q.2.2.1 θ * srcVal ⟨d, false⟩ θ q.2.2.2.1 * instVal (value old) q.2.2.2.2 θ))).sum := by
  intro body
  induction body with
  | nil => simp [instVal, splits, splits2]
  | cons z b ih =>
    have hc : ∀ (v : Tm → K) z b, instVal v (z :: b) θ = litVal v θ z * instVal v b θ := fun v z b => by simp [instVal]
    have hn : ∀ v : Tm → K, instVal v ([] : List (BLit K)) θ = 1 := fun v => by simp [instVal]
    have e2 : splits2 (z :: b) = ((splits b).map fun q => ([], z, q.1, q.2.1, q.2.2)) ++ (splits2 b).map fun q => (z :: q.1, q.2) := by
      simp only [splits2, splits, List.flatMap_cons, List.flatMap_map, List.map_flatMap, List.map_map, Function.comp_def]
    rw [e2]
    simp only [splits, List.map_cons, List.sum_cons, List.map_map, Function.comp_def, hc, hn, List.map_append, List.sum_append, one_mul]
    simp only [mul_assoc, List.sum_map_mul_left]
    simp only [mul_assoc] at ih
    conv_lhs => rw [ih, litVal_split hv]
    rw [litVal_split hv]
    ring

theorem contrib_zAt {r : SRule K} {chart : Dict Tm K} {x : Tm} :
    contrib r (value chart) x = ∑ᶠ θ, zAt r (r.body.map fun z => ((⟨chart, true⟩ : Src K), z)) x θ := by
  unfold contrib
  refine finsum_congr fun θ => ?_
  unfold instAt zAt
  rw [prod_true]

theorem sum_finsum {r : SRule K} (hr : Safe r) (x : Tm) {α : Type} {F : α → List (Src K × BLit K)} : ∀ {l : List α},
    (∀ a ∈ l, ∀ z, z ∈ r.body ↔ z ∈ (F a).map Prod.snd) →
    (Function.support fun θ => (l.map fun a => zAt r (F a) x θ).sum).Finite ∧
      (l.map fun a => ∑ᶠ θ, zAt r (F a) x θ).sum = ∑ᶠ θ, (l.map fun a => zAt r (F a) x θ).sum
  | [], _ => by simp
  | a :: l, h => by
    obtain ⟨f1, e1⟩ := sum_finsum hr x (F := F) (l := l) fun a ha => h a (by simp [ha])
    have f2 := zAt_finite hr (h a (by simp)) x
    simp only [List.map_cons, List.sum_cons]
    exact ⟨(f2.union f1).subset (Function.support_add _ _), by rw [e1, finsum_add_distrib f2 f1]⟩

theorem contrib_lin {old new d : Dict Tm K} (hv : ∀ x, value new x = value old x + value d x) {r : SRule K} (hr : Safe r) (x : Tm) :
    contrib r (value new) x = contrib r (value old) x + ((splits r.body).map fun p => ∑ᶠ θ, zAt r (zsOf old old d p) x θ).sum +
      ((splits2 r.body).map fun q => ∑ᶠ θ, zAt r (zs5 old d new q) x θ).sum := by
  have hm : ∀ c : Dict Tm K, ∀ z, z ∈ r.body ↔ z ∈ (r.body.map fun z => ((⟨c, true⟩ : Src K), z)).map Prod.snd := fun c z => by
    simp [Function.comp_def]
  have f1 := zAt_finite hr (hm old) x
  obtain ⟨f2, e2⟩ := sum_finsum hr x (F := zsOf old old d) (l := splits r.body) fun p hp => zsOf_mem hp
  obtain ⟨f3, e3⟩ := sum_finsum hr x (F := zs5 old d new) (l := splits2 r.body) fun q hq => zs5_mem hq
  rw [contrib_zAt, contrib_zAt, e2, e3, ← finsum_add_distrib f1 f2, ← finsum_add_distrib _ f3]
  · refine finsum_congr fun θ => ?_
    unfold zAt
    split
    · rw [prod_true, prod_true]
      simp only [zsOf_prod, zs5_prod]
      exact inst_lin hv r.body
    · simp
  · exact (f1.union f2).subset (Function.support_add _ _)

/-- The change of the right-hand sides from `old` to `new = old + d`: a part linear in `d`, and the rest. -/
theorem rhs_lin {rules : List (SRule K)} (hr : ∀ r ∈ rules, Safe r) {old new d : Dict Tm K} (hv : ∀ x, value new x = value old x + value d x)
    (x : Tm) : rhs rules (value new) x = rhs rules (value old) x + Lin rules old d x + Quad rules old d new x := by
  unfold rhs Lin Quad
  rw [← List.sum_map_add, ← List.sum_map_add]
  congr 1
  exact List.map_congr_left fun r hrm => contrib_lin hv (hr r hrm) x

/-! ### The first linear program -/

theorem splits_const {α : Type} {b : α → Bool} {l : List α} {p} (hp : p ∈ splits l) (h : b p.2.1 = true) (h0 : (l.filter b).length = 0) : False := by
  rw [mem_splits hp] at h0
  simp [List.filter_append, List.filter_cons, h] at h0

theorem splits2_const {α : Type} {b : α → Bool} {l : List α} {q} (hq : q ∈ splits2 l) (h1 : b q.2.1 = true) (h2 : b q.2.2.2.1 = true)
    (h : (l.filter b).length ≤ 1) : False := by
  rw [mem_splits2 hq] at h
  simp [List.filter_append, List.filter_cons, h1, h2] at h
  omega

theorem sum_zero {α : Type} {f : α → K} {l : List α} (h : ∀ a ∈ l, f a = 0) : (l.map f).sum = 0 := by
  induction l with
  | nil => simp
  | cons a l ih => simp [h a (by simp), ih fun a ha => h a (by simp [ha])]

theorem value_nil : value ([] : Dict Tm K) = fun _ => 0 := rfl

/-- two elements of the body are not constants -/
theorem two_subs : ∀ {b : List (BLit K)}, ¬(b.filter fun z => !isConst z).length ≤ 1 → ∀ p ∈ splits b, ∃ z ∈ p.1 ++ p.2.2, isConst z = false := by
  intro b hb p hp
  by_contra hc
  push_neg at hc
  refine hb ?_
  rw [mem_splits hp]
  have h1 : p.1.filter (fun z => !isConst z) = [] := List.filter_eq_nil_iff.2 fun z hz => by have := hc z (by simp [hz]); simpa using this
  have h2 : p.2.2.filter (fun z => !isConst z) = [] := List.filter_eq_nil_iff.2 fun z hz => by have := hc z (by simp [hz]); simpa using this
  rw [List.filter_append, h1, List.filter_cons, h2]
  split <;> simp

theorem start_rhs {g : Cfg K} (hr : ∀ r ∈ g.rules, Safe r ∧ Plain r) (d : Dict Tm K) (x : Tm) :
    rhs (start g).changeP (value d) x = rhs g.rules (fun _ => 0) x + Lin g.rules [] d x := by
  have hd : ∀ x, value d x = value ([] : Dict Tm K) x + value d x := fun x => by simp [value_nil]
  simp only [start, rhs, Lin]
  rw [← List.sum_map_add]
  generalize g.rules = l at hr ⊢
  induction l with
  | nil => simp
  | cons r l ih =>
    replace ih := ih fun r hr' => hr r (by simp [hr'])
    obtain ⟨hs, hpl⟩ := hr r (by simp)
    have hcl := contrib_lin hd hs x
    rw [List.filter_cons]
    split
    · rename_i h1
      simp only [decide_eq_true_eq] at h1
      rw [List.map_cons, List.map_cons, List.sum_cons, List.sum_cons, ih, hcl, sum_zero (l := splits2 r.body), add_zero]
      · rfl
      intro q hq
      by_cases ha : isConst q.2.1 = true
      · exact zAt_zero (z := (⟨d, false⟩, q.2.1)) (by simp [zs5]) (srcVal_isConst ha) x
      · by_cases hb : isConst q.2.2.2.1 = true
        · exact zAt_zero (z := (⟨d, false⟩, q.2.2.2.1)) (by simp [zs5]) (srcVal_isConst hb) x
        · exact (splits2_const (b := fun z => !isConst z) hq (by simpa using ha) (by simpa using hb) h1).elim
    · rename_i h1
      simp only [decide_eq_true_eq] at h1
      have hz : ∀ z ∈ r.body, isConst z = false → ∀ θ, srcVal (⟨[], true⟩ : Src K) θ z = 0 := by
        intro z hz hc θ
        rcases hpl z hz with ⟨k, rfl⟩ | ⟨t, rfl⟩
        · simp [isConst] at hc
        · rfl
      rw [List.map_cons, List.sum_cons, ih, sum_zero (l := splits r.body), add_zero]
      · have h0 : contrib r (fun _ => 0) x = 0 := by
          rw [← value_nil, contrib_zAt]
          have : ∃ z ∈ r.body, isConst z = false := by
            by_contra hc
            push_neg at hc
            exact h1 (by rw [List.filter_eq_nil_iff.2 fun z hz => by have := hc z hz; simpa using this]; simp)
          obtain ⟨z, hzm, hc⟩ := this
          exact zAt_zero (z := (⟨[], true⟩, z)) (by simpa using hzm) (hz z hzm hc) x
        rw [h0, zero_add]
      · intro p hp
        obtain ⟨z, hzm, hc⟩ := two_subs h1 p hp
        refine zAt_zero (z := (⟨[], true⟩, z)) ?_ (hz z ?_ hc) x
        · simpa [zsOf] using hzm
        · rw [mem_splits hp]; simp at hzm ⊢; tauto

/-! ### The invariant -/

/-- `E` is what the right-hand sides add to the chart -/
structure Inv (rules : List (SRule K)) (st : NSt K) (E : Tm → K) : Prop where
  ok : OkD st.chart
  eqn : ∀ x, rhs rules (value st.chart) x = value st.chart x + E x
  okp : OkP st.changeP
  lin : ∀ d, OkD d → ∀ x, rhs st.changeP (value d) x = E x + Lin rules st.chart d x

/-- the states of the loop of `_newton` after `t` iterations -/
inductive NReach (g : Cfg K) (one? : K → Bool) (star : K → K) (f n : Nat) : Nat → NSt K → Prop
  | start : NReach g one? star f n 0 (start g)
  | step {t st change p} : NReach g one? star f n t st → solveChange star f n st = some (change, .done) →
      linearized g one? f st.chart change (nextChart g st change) = some (p, .done) →
      NReach g one? star f n (t + 1) ⟨nextChart g st change, p⟩

/-- `star` satisfies its equation on all pivots met while solving the linear programs of the first `m` iterations -/
def StarAll (g : Cfg K) (one? : K → Bool) (star : K → K) (f n m : Nat) : Prop :=
  ∀ t st, NReach g one? star f n t st → t < m → LinSolve.StarOn star f n st.changeP

theorem inv_start {g : Cfg K} (hr : ∀ r ∈ g.rules, Safe r ∧ Plain r) : Inv g.rules (start g) (rhs g.rules fun _ => 0) :=
  ⟨OkD.nil, fun x => by simp [start, value_nil], fun r hr' => hr r (List.mem_filter.1 hr').1, fun d _ x => start_rhs hr d x⟩

theorem next_value {g : Cfg K} (hd : ∀ c, g.dead c = true → c = 0) {st : NSt K} (hc : OkD st.chart) {d : Dict Tm K} (hdd : OkD d) :
    OkD (nextChart g st d) ∧ ∀ x, value (nextChart g st d) x = value st.chart x + value d x := by
  obtain ⟨h1, h2⟩ := foldChart_value hd (l := st.chart ++ d) (by
    intro e he
    rcases List.mem_append.1 he with he | he
    · exact hc.ground _ (List.mem_map.2 ⟨e, he, rfl⟩)
    · exact hdd.ground _ (List.mem_map.2 ⟨e, he, rfl⟩))
  refine ⟨h1, fun x => ?_⟩
  rw [nextChart, h2, Solver.dataAt_append, Solver.dataAt_dict hc.wf, Solver.dataAt_dict hdd.wf]

theorem change_ok {star : K → K} {f n : Nat} {st : NSt K} (hp : OkP st.changeP) {change} (e : solveChange star f n st = some (change, .done)) :
    OkD change := LinSolve.linSolve_ok (fun r hr => (hp r hr).1) (fun r hr => (hp r hr).2) e

/-- the change is a solution of the linear program -/
theorem change_eq {star : K → K} {f n : Nat} {g : Cfg K} {st : NSt K} {E : Tm → K} (h : Inv g.rules st E)
    (hs : LinSolve.StarOn star f n st.changeP) {change} (e : solveChange star f n st = some (change, .done)) (x : Tm) :
    value change x = E x + Lin g.rules st.chart change x := by
  rw [← h.lin _ (change_ok h.okp e)]
  exact LinSolve.C59_solves (fun r hr => (h.okp r hr).1) (fun r hr => (h.okp r hr).2) hs e x

theorem inv_step {g : Cfg K} (hd : ∀ c, g.dead c = true → c = 0) {one? : K → Bool} (h1 : ∀ c, one? c = true → c = 1)
    (hr : ∀ r ∈ g.rules, Safe r ∧ Plain r) {star : K → K} {f n : Nat} {st : NSt K} {E : Tm → K} (h : Inv g.rules st E)
    (hs : LinSolve.StarOn star f n st.changeP) {change p} (e : solveChange star f n st = some (change, .done))
    (e2 : linearized g one? f st.chart change (nextChart g st change) = some (p, .done)) :
    Inv g.rules ⟨nextChart g st change, p⟩ (Quad g.rules st.chart change (nextChart g st change)) := by
  have hc := change_ok h.okp e
  obtain ⟨hn, hv⟩ := next_value hd h.ok hc
  obtain ⟨hp, hl⟩ := linearized_adds hd h1 hr h.ok hc hn e2
  refine ⟨hn, fun x => ?_, hp, hl⟩
  rw [rhs_lin (fun r hrm => (hr r hrm).1) hv, h.eqn, hv, add_assoc (value st.chart x), ← change_eq h hs e]

/-! ### Newton steps, as specification -/

/-- the derivative of one body element in direction `d` -/
def dLit (d : Tm → K) (θ : Nat → Tm) : BLit K → K
  | .sub t => d (t.sub θ)
  | _ => 0

/-- the product rule -/
def dInst (u d : Tm → K) (θ : Nat → Tm) : List (BLit K) → K
  | [] => 0
  | z :: b => dLit d θ z * instVal u b θ + litVal u θ z * dInst u d θ b

open Classical in
/-- the derivative of the right-hand sides at `u` in direction `d` -/
noncomputable def deriv (rules : List (SRule K)) (u d : Tm → K) (x : Tm) : K :=
  (rules.map fun r => ∑ᶠ θ, if θ ∈ GSub r ∧ r.head.sub θ = x then dInst u d θ r.body else 0).sum

/-- One step of Newton's method: the change `D` solves the linearized equations. -/
def NStep (rules : List (SRule K)) (u w : Tm → K) : Prop :=
  ∃ E D : Tm → K, (∀ x, rhs rules u x = u x + E x) ∧ (∀ x, D x = E x + deriv rules u D x) ∧ ∀ x, w x = u x + D x

/-- `w` is reached from the empty chart by `t` Newton steps -/
inductive NSteps (rules : List (SRule K)) : Nat → (Tm → K) → Prop
  | zero : NSteps rules 0 fun _ => 0
  | succ {t u w} : NSteps rules t u → NStep rules u w → NSteps rules (t + 1) w

theorem dInst_splits {old d : Dict Tm K} {θ : Nat → Tm} : ∀ body : List (BLit K), dInst (value old) (value d) θ body =
    ((splits body).map fun p => instVal (value old) p.1 θ * srcVal ⟨d, false⟩ θ p.2.1 * instVal (value old) p.2.2 θ).sum
  | [] => by simp [dInst, splits]
  | z :: b => by
    have hc : ∀ (v : Tm → K) z b, instVal v (z :: b) θ = litVal v θ z * instVal v b θ := fun v z b => by simp [instVal]
    have hn : ∀ v : Tm → K, instVal v ([] : List (BLit K)) θ = 1 := fun v => by simp [instVal]
    have hz : dLit (value d) θ z = srcVal ⟨d, false⟩ θ z := by cases z <;> simp [dLit, srcVal]
    rw [dInst, dInst_splits b, hz]
    simp only [splits, List.map_cons, List.sum_cons, List.map_map, Function.comp_def, hc, hn, one_mul, mul_assoc, List.sum_map_mul_left]

theorem lin_deriv {rules : List (SRule K)} (hr : ∀ r ∈ rules, Safe r) {old d : Dict Tm K} (x : Tm) :
    Lin rules old d x = deriv rules (value old) (value d) x := by
  unfold Lin deriv
  congr 1
  refine List.map_congr_left fun r hrm => ?_
  obtain ⟨_, e2⟩ := sum_finsum (hr r hrm) x (F := zsOf old old d) (l := splits r.body) fun p hp => zsOf_mem hp
  rw [e2]
  refine finsum_congr fun θ => ?_
  unfold zAt
  split
  · simp only [zsOf_prod]
    rw [dInst_splits]
  · simp

section Run
variable {g : Cfg K} (hd : ∀ c, g.dead c = true → c = 0) {one? : K → Bool} (h1 : ∀ c, one? c = true → c = 1)
  (hr : ∀ r ∈ g.rules, Safe r ∧ Plain r) {star : K → K} {f n m : Nat}
include hd h1 hr

theorem inv_reach (hs : StarAll g one? star f n m)
    {t : Nat} {st : NSt K} (h : NReach g one? star f n t st) (ht : t ≤ m) : ∃ E, Inv g.rules st E := by
  induction h with
  | start => exact ⟨_, inv_start hr⟩
  | step hst e e2 ih =>
    obtain ⟨E, ih⟩ := ih (by omega)
    exact ⟨_, inv_step hd h1 hr ih (hs _ _ hst (by omega)) e e2⟩

theorem step_of (hs : StarAll g one? star f n m)
    {t : Nat} {st : NSt K} (h : NReach g one? star f n t st) (ht : t < m) {change} (e : solveChange star f n st = some (change, .done)) :
    NStep g.rules (value st.chart) (value (nextChart g st change)) := by
  obtain ⟨E, hi⟩ := inv_reach hd h1 hr hs h ht.le
  refine ⟨E, value change, hi.eqn, fun x => ?_, (next_value hd hi.ok (change_ok hi.okp e)).2⟩
  rw [← lin_deriv fun r hrm => (hr r hrm).1]
  exact change_eq hi (hs _ _ h ht) e x

theorem reach_steps (hs : StarAll g one? star f n m)
    {t : Nat} {st : NSt K} (h : NReach g one? star f n t st) (ht : t ≤ m) : NSteps g.rules t (value st.chart) := by
  induction h with
  | start => exact .zero
  | step hst e e2 ih => exact .succ (ih (by omega)) (step_of hd h1 hr hs hst (by omega) e)

end Run

/-- how a run of `newton` ends: with the next chart after a state of the loop; either it equals the chart, or the
count is reached -/
theorem newtonF_end {g : Cfg K} {one? : K → Bool} {star : K → K} {f n : Nat} {T : Option Nat} : ∀ m t st, ∀ {c},
    NReach g one? star f n t st → newtonF g one? star f n T m t st = some (c, .done) →
    ∃ t' st' change, NReach g one? star f n t' st' ∧ t' < t + m ∧ solveChange star f n st' = some (change, .done) ∧ c = nextChart g st' change ∧
      (g.same st'.chart c = true ∨ T = some (t' + 1)) ∧ ∀ k, T = some k → t < k → t' < k
  | 0, _, _, _, _, e => by simp [newtonF] at e
  | m + 1, t, st, c, hst, e => by
    rw [newtonF] at e
    split at e
    · simp at e
    · rename_i change es
      simp only at e
      split at e
      · rename_i hsame
        simp only [Option.some.injEq, Prod.mk.injEq, and_true] at e
        subst e
        exact ⟨t, st, change, hst, by omega, es, rfl, .inl hsame, fun _ _ h => h⟩
      · split at e
        · rename_i hT
          simp only [Option.some.injEq, Prod.mk.injEq, and_true] at e
          subst e
          exact ⟨t, st, change, hst, by omega, es, rfl, .inr hT, fun _ _ h => h⟩
        · rename_i hT
          split at e
          · simp at e
          · rename_i p el
            obtain ⟨t', st', ch, h1, hlt, h2, h3, h4, h5⟩ := newtonF_end m (t + 1) _ (.step hst es el) e
            exact ⟨t', st', ch, h1, by omega, h2, h3, h4, fun k hk hlt => h5 k hk (by
              rcases Nat.lt_or_ge (t + 1) k with h | h
              · exact h
              · exact (hT (by rw [hk]; congr 1; omega)).elim)⟩
          · rename_i hne _
            simp only [Option.some.injEq, Prod.mk.injEq] at e
            exact (hne e.2).elim
    · rename_i hne _
      simp only [Option.some.injEq, Prod.mk.injEq] at e
      exact (hne e.2).elim

/-! ### Property C60 -/

/-- Every chart that `newton(T)` returns is reached by Newton steps: the change added in each iteration solves the
equations linearized at the chart.  Either these are exactly `T` steps, or there are at most `T` and the last one did
not change the chart (and without a limit the latter holds). -/
theorem C60_steps {g : Cfg K} (hd : ∀ c, g.dead c = true → c = 0) (hsame : ∀ a b, g.same a b = true → ∀ x, value a x = value b x)
    {one? : K → Bool} (h1 : ∀ c, one? c = true → c = 1) (hr : ∀ r ∈ g.rules, Safe r ∧ Plain r) {star : K → K}
    {f n m : Nat} (hs : StarAll g one? star f n m) {T : Option Nat} {c : Dict Tm K}
    (e : newton g one? star f n m T = some (c, .done)) :
    ∃ t u, NSteps g.rules t u ∧ NStep g.rules u (value c) ∧ ((∀ x, u x = value c x) ∨ T = some (t + 1)) ∧ ∀ k, T = some (k + 1) → t ≤ k := by
  obtain ⟨t, st, ch, h2, hm, h3, rfl, h4, h5⟩ := newtonF_end m 0 _ .start e
  exact ⟨t, _, reach_steps hd h1 hr hs h2 (by omega), step_of hd h1 hr hs h2 (by omega) h3, h4.imp_left fun h => hsame _ _ h,
    fun k hk => Nat.lt_succ_iff.1 (h5 _ hk (by omega))⟩

/-- Where addition cancels, a chart returned without a limit on the iterations solves the equations of the program. -/
theorem C60_fixpoint_cancel [IsCancelAdd K] {g : Cfg K} (hd : ∀ c, g.dead c = true → c = 0)
    (hsame : ∀ a b, g.same a b = true → ∀ x, value a x = value b x) {one? : K → Bool} (h1 : ∀ c, one? c = true → c = 1)
    (hr : ∀ r ∈ g.rules, Safe r ∧ Plain r) {star : K → K}
    {f n m : Nat} (hs : StarAll g one? star f n m) {c : Dict Tm K}
    (e : newton g one? star f n m none = some (c, .done)) (x : Tm) : value c x = rhs g.rules (value c) x := by
  obtain ⟨t, u, _, ⟨E, D, e1, e2, e3⟩, h4, _⟩ := C60_steps hd hsame h1 hr hs e
  have h4 := h4.resolve_right (by simp)
  have hu : u = value c := funext h4
  subst hu
  have hD : D = fun _ => 0 := funext fun x => by
    have := e3 x
    exact (left_eq_add.1 this)
  have h0 : ∀ (b : List (BLit K)) θ, dInst (value c) (fun _ => 0) θ b = 0 := by
    intro b θ
    induction b with
    | nil => rfl
    | cons z b ih =>
      have : dLit (fun _ => (0 : K)) θ z = 0 := by cases z <;> rfl
      rw [dInst, ih, this]; simp
  have hE : E x = 0 := by
    have := e2 x
    rw [hD] at this
    rw [show deriv g.rules (value c) (fun _ => 0) x = 0 from sum_zero fun r _ => by simp [h0]] at this
    simpa using this.symm
  rw [e1, hE, add_zero]

/-- A limit of `0` is no limit: iterations are counted from 1. -/
theorem C60_zero {g : Cfg K} {one? : K → Bool} {star : K → K} {f n m : Nat} :
    newton g one? star f n m (some 0) = newton g one? star f n m none := by
  have key : ∀ m t st, newtonF g one? star f n (some 0) m t st = newtonF g one? star f n none m t st := by
    intro m
    induction m with
    | zero => intros; rfl
    | succ m ih => intro t st; simp [newtonF, ih]
  exact key m 0 _

section Ordered
variable [PartialOrder K] [IsOrderedRing K]

theorem rhs_mono (h0 : ∀ k : K, 0 ≤ k) {rules : List (SRule K)} (hr : ∀ r ∈ rules, Safe r) {v : Tm → K} {chart : Dict Tm K}
    (h : ∀ x, v x ≤ value chart x) (x : Tm) : rhs rules v x ≤ rhs rules (value chart) x := by
  unfold rhs
  refine List.sum_le_sum fun r hrm => ?_
  have hf := Solver.C23_finite (hr r hrm) chart x
  have hle : ∀ θ, instAt r v x θ ≤ instAt r (value chart) x θ := fun θ => Solver.instAt_mono h0 h r x θ
  have hnn : ∀ θ, 0 ≤ instAt r v x θ := fun θ => by unfold instAt; split; exacts [h0 _, le_rfl]
  unfold contrib
  rw [finsum_eq_sum_of_support_subset (s := hf.toFinset) (f := instAt r v x) (by
      intro θ hθ
      simp only [Set.Finite.coe_toFinset, Function.mem_support] at hθ ⊢
      exact fun h0' => hθ (le_antisymm (h0' ▸ hle θ) (hnn θ))),
    finsum_eq_sum_of_support_subset (s := hf.toFinset) (f := instAt r (value chart) x) (by simp)]
  exact Finset.sum_le_sum fun θ _ => hle θ

/-- A chart returned without a limit solves the equations of the program, in an ordered semiring with `0` as least
element. -/
theorem C60_fixpoint (h0 : ∀ k : K, 0 ≤ k) {g : Cfg K} (hd : ∀ c, g.dead c = true → c = 0)
    (hsame : ∀ a b, g.same a b = true → ∀ x, value a x = value b x) {one? : K → Bool} (h1 : ∀ c, one? c = true → c = 1)
    (hr : ∀ r ∈ g.rules, Safe r ∧ Plain r) {star : K → K}
    {f n m : Nat} (hs : StarAll g one? star f n m) {c : Dict Tm K}
    (e : newton g one? star f n m none = some (c, .done)) (x : Tm) : value c x = rhs g.rules (value c) x := by
  obtain ⟨t, u, _, ⟨E, D, e1, e2, e3⟩, h4, _⟩ := C60_steps hd hsame h1 hr hs e
  have h4 := h4.resolve_right (by simp)
  have hu : u = value c := funext h4
  subst hu
  rw [e1]
  refine le_antisymm (le_add_of_nonneg_right (h0 _)) ?_
  calc value c x + E x ≤ value c x + (E x + deriv g.rules (value c) D x) := by
        gcongr; exact le_add_of_nonneg_right (h0 _)
    _ = value c x := by rw [← e2, ← e3]

/-- `t` Newton steps reach at least the first `t` rounds of forward chaining. -/
theorem steps_rounds (h0 : ∀ k : K, 0 ≤ k) {g : Cfg K} (hd : ∀ c, g.dead c = true → c = 0) {one? : K → Bool} (h1 : ∀ c, one? c = true → c = 1)
    (hr : ∀ r ∈ g.rules, Safe r ∧ Plain r) {star : K → K} {f n m : Nat}
    (hs : StarAll g one? star f n m) {t : Nat} {st : NSt K} (h : NReach g one? star f n t st) (ht : t ≤ m) :
    ∀ k ≤ t, ∀ x, iter g.rules k x ≤ value st.chart x := by
  induction h with
  | start =>
    intro k hk x
    obtain rfl : k = 0 := by omega
    exact h0 _
  | step hst e e2 ih =>
    intro k hk x
    cases k with
    | zero => exact h0 _
    | succ k =>
    obtain ⟨E, D, q1, q2, q3⟩ := step_of hd h1 hr hs hst (by omega) e
    refine le_trans (rhs_mono h0 (fun r hrm => (hr r hrm).1) (ih (by omega) k (by omega)) x) ?_
    simp only [q3, q1, q2]
    gcongr
    exact le_add_of_nonneg_right (h0 _)

/-- After `T` iterations the chart is above the `T`-th round of forward chaining; without a limit it is above all of
them. -/
theorem C60_rounds (h0 : ∀ k : K, 0 ≤ k) {g : Cfg K} (hd : ∀ c, g.dead c = true → c = 0)
    (hsame : ∀ a b, g.same a b = true → ∀ x, value a x = value b x) {one? : K → Bool} (h1 : ∀ c, one? c = true → c = 1)
    (hr : ∀ r ∈ g.rules, Safe r ∧ Plain r) {star : K → K} {f n m : Nat} (hs : StarAll g one? star f n m) {T : Option Nat} {c : Dict Tm K}
    (e : newton g one? star f n m T = some (c, .done)) {k : Nat} (hk : ∀ t, T = some t → k ≤ t) (x : Tm) :
    iter g.rules k x ≤ value c x := by
  obtain ⟨t, st, ch, h2, hm, h3, rfl, h4, h5⟩ := newtonF_end m 0 _ .start e
  have hrs : ∀ r ∈ g.rules, Safe r := fun r hrm => (hr r hrm).1
  obtain ⟨E, D, q1, q2, q3⟩ := step_of hd h1 hr hs h2 (by omega) h3
  have hup : ∀ x, rhs g.rules (value st.chart) x ≤ value (nextChart g st ch) x := fun x => by
    rw [q1, q3, q2]; gcongr; exact le_add_of_nonneg_right (h0 _)
  rcases h4 with h4 | h4
  · -- a fixpoint: above all rounds
    have hc := hsame _ _ h4
    have : ∀ k x, iter g.rules k x ≤ value st.chart x := by
      intro k
      induction k with
      | zero => intro x; exact h0 _
      | succ k ih => intro x; rw [hc]; exact le_trans (rhs_mono h0 hrs ih x) (hup x)
    rw [← hc]
    exact this k x
  · cases k with
    | zero => exact h0 _
    | succ k =>
      have := hk _ h4
      exact le_trans (rhs_mono h0 hrs (steps_rounds h0 hd h1 hr hs h2 (by omega) k (by omega)) x) (hup x)

/-- The chart of `newton` never exceeds a valuation that is closed under the rules.  `hres`: what fits between two
values has a largest element. -/
theorem below (h0 : ∀ k : K, 0 ≤ k) (hres : ∀ c x : K, c ≤ x → ∃ m, ∀ z, c + z ≤ x ↔ z ≤ m) {g : Cfg K} (hd : ∀ c, g.dead c = true → c = 0)
    {star : K → K} (hstar : ∀ a, star a = 1 + star a * a) (hind : ∀ a b x : K, b + a * x ≤ x → star a * b ≤ x)
    (hr : ∀ r ∈ g.rules, Safe r ∧ Plain r) {f n : Nat} {st : NSt K} {E : Tm → K} (hi : Inv g.rules st E) {v : Tm → K}
    (hv : Closed g.rules v) (hle : ∀ x, value st.chart x ≤ v x) {change} (e : solveChange star f n st = some (change, .done)) (x : Tm) :
    value (nextChart g st change) x ≤ v x := by
  have hrs : ∀ r ∈ g.rules, Safe r := fun r hrm => (hr r hrm).1
  have hok := change_ok hi.okp e
  choose M hM using fun x => hres _ _ (hle x)
  let d : Dict Tm K := change.map fun p => (p.1, M p.1)
  have hk : Dict.keys d = Dict.keys change := by simp [d, Dict.keys, Function.comp_def]
  have hwf : Dict.WF d := by unfold Dict.WF; rw [hk]; exact hok.wf
  have hdd : OkD d := ⟨hwf, fun x hx => hok.ground x (hk ▸ hx)⟩
  have hin : ∀ x ∈ Dict.keys change, value d x = M x := by
    intro x hx
    obtain ⟨p, hp, rfl⟩ := List.mem_map.1 hx
    have : (p.1, M p.1) ∈ d := List.mem_map.2 ⟨p, hp, rfl⟩
    rw [value, Dict.get_of_mem hwf this]; rfl
  have hout : ∀ x, x ∉ Dict.keys change → value d x = 0 := by
    intro x hx
    rw [value, (Dict.get_eq_none_iff _ _).2 (by rw [hk]; exact hx)]; rfl
  have hMd : ∀ x, value d x ≤ M x := by
    intro x
    by_cases hx : x ∈ Dict.keys change
    · rw [hin x hx]
    · rw [hout x hx]; exact h0 _
  obtain ⟨hnd, hnv⟩ := next_value hd hi.ok hdd
  rw [(next_value hd hi.ok hok).2, hM]
  refine le_trans (LinSolve.below_chart h0 hstar hind (fun r hrm => (hi.okp r hrm).1) (fun r hrm => (hi.okp r hrm).2) e hout (fun x hx => ?_) x) (hMd x)
  rw [hin x hx, ← hM, hi.lin d hdd]
  have := rhs_below h0 hrs hv (chart := nextChart g st d) (fun x => by rw [hnv]; exact (hM x _).2 (hMd x)) x
  rw [rhs_lin hrs hnv, hi.eqn] at this
  refine le_trans ?_ this
  rw [← add_assoc]
  exact le_add_of_nonneg_right (h0 _)

/-- In an ordered semiring where `star a * b` is the least solution of `b + a * x ≤ x`, every chart returned by
`newton` is below all valuations closed under the rules, and a chart returned without a limit is the least of them. -/
theorem C60_least (h0 : ∀ k : K, 0 ≤ k) (hres : ∀ c x : K, c ≤ x → ∃ m, ∀ z, c + z ≤ x ↔ z ≤ m) {g : Cfg K}
    (hd : ∀ c, g.dead c = true → c = 0) (hsame : ∀ a b, g.same a b = true → ∀ x, value a x = value b x) {one? : K → Bool}
    (h1 : ∀ c, one? c = true → c = 1) (hr : ∀ r ∈ g.rules, Safe r ∧ Plain r) {star : K → K} (hstar : ∀ a, star a = 1 + star a * a)
    (hind : ∀ a b x : K, b + a * x ≤ x → star a * b ≤ x) {f n m : Nat} {T : Option Nat} {c : Dict Tm K}
    (e : newton g one? star f n m T = some (c, .done)) :
    (∀ v, Closed g.rules v → ∀ x, value c x ≤ v x) ∧ (T = none → Closed g.rules (value c)) := by
  have hst : ∀ f n rules, LinSolve.StarOn star f n rules := LinSolve.starOn_total fun a => by rw [mul_comm]; exact hstar a
  have hs : StarAll g one? star f n m := fun _ _ _ _ => hst _ _ _
  refine ⟨fun v hv => ?_, ?_⟩
  · obtain ⟨t, st, ch, h2, hm, h3, rfl, h4, h5⟩ := newtonF_end m 0 _ .start e
    have key : ∀ {t st}, NReach g one? star f n t st → (∃ E, Inv g.rules st E) ∧ ∀ x, value st.chart x ≤ v x := by
      intro t st h
      induction h with
      | start => exact ⟨⟨_, inv_start hr⟩, fun x => by have := hv x fun _ => ∅; simpa [start, value_nil] using this⟩
      | step hst' e e2 ih =>
        obtain ⟨⟨E, hi⟩, ih⟩ := ih
        exact ⟨⟨_, inv_step hd h1 hr hi (hst _ _ _) e e2⟩, below h0 hres hd hstar hind hr hi hv ih e⟩
    obtain ⟨⟨E, hi⟩, hle⟩ := key h2
    exact below h0 hres hd hstar hind hr hi hv hle h3
  · rintro rfl
    exact fixpoint_closed h0 (fun r hrm => (hr r hrm).1) (C60_fixpoint h0 hd hsame h1 hr hs e)

end Ordered

/-! ### Examples -/

section Examples

/-- one iteration, as a function -/
private def stepN (g : Cfg K) (one? : K → Bool) (star : K → K) (f n : Nat) (st : NSt K) : Option (NSt K) :=
  match solveChange star f n st with
  | some (change, .done) => match linearized g one? f st.chart change (nextChart g st change) with
    | some (p, .done) => some ⟨nextChart g st change, p⟩
    | _ => none
  | _ => none

private def nth (g : Cfg K) (one? : K → Bool) (star : K → K) (f n : Nat) : Nat → Option (NSt K)
  | 0 => some (start g)
  | t + 1 => (nth g one? star f n t).bind (stepN g one? star f n)

private theorem reach_nth {g : Cfg K} {one? : K → Bool} {star : K → K} {f n t : Nat} {st : NSt K} (h : NReach g one? star f n t st) :
    nth g one? star f n t = some st := by
  induction h with
  | start => rfl
  | step _ e e2 ih => rw [nth, ih, Option.bind_some, stepN, e]; simp only; rw [e2]

private def starOk [DecidableEq K] (star : K → K) (f n : Nat) (rules : List (SRule K)) : Bool :=
  match LinSolve.agenda (LinSolve.booleanize rules) f n with
  | some (b, .done) => match LinSolve.buildMV f b rules with
    | some (_, s, .done) => decide (Kleene.PivotsR star (List.finRange _) (Kleene.packM s.M (Kleene.alphabet s.M s.V)))
    | _ => true
  | _ => true

private theorem starOk_on [DecidableEq K] {star : K → K} {f n : Nat} {rules : List (SRule K)} (h : starOk star f n rules = true) :
    LinSolve.StarOn star f n rules := by
  intro b hp s eb es
  rw [starOk, eb] at h
  simp only at h
  rw [es] at h
  simpa using h

private theorem starAll [DecidableEq K] {g : Cfg K} {one? : K → Bool} {star : K → K} {f n m : Nat}
    (h : ∀ t < m, ((nth g one? star f n t).map fun st => starOk star f n st.changeP) ≠ some false) : StarAll g one? star f n m := by
  intro t st hst ht
  have := h t ht
  rw [reach_nth hst] at this
  exact starOk_on (by simpa using this)

private def ct (s : String) : Tm := .con (.str s)
private def X : Tm := .var 0
private def e (x : Tm) : Tm := .app [ct "e", x]
private def p (x : Tm) : Tm := .app [ct "p", x]
private def qstar (a : ℚ) : ℚ := 1 / (1 - a)

private def cfg (rules : List (SRule ℚ)) : Cfg ℚ := ⟨rules, fun c => c == 0, 0, fun a b => a == b, fun a b => a == b⟩
private def isOne (c : ℚ) : Bool := c == 1

/-- `e(a) += 1/4.  e(b) += 3/16.  p(X) += e(X).  p(X) += p(X) * p(X).` -/
private def sq : List (SRule ℚ) :=
  [⟨e (ct "a"), [.val (1/4)]⟩, ⟨e (ct "b"), [.val (3/16)]⟩, ⟨p X, [.sub (e X)]⟩, ⟨p X, [.sub (p X), .sub (p X)]⟩]

private theorem sq_ok : ∀ r ∈ (cfg sq).rules, Safe r ∧ Plain r := by
  intro r hr
  simp only [cfg, sq, List.mem_cons, List.not_mem_nil, or_false] at hr
  rcases hr with rfl | rfl | rfl | rfl
  · exact ⟨⟨fun n hn => by rcases hn with hn | ⟨z, hz, hn⟩ <;> simp_all [e, ct, litVars], by simp⟩, by simp [Plain]⟩
  · exact ⟨⟨fun n hn => by rcases hn with hn | ⟨z, hz, hn⟩ <;> simp_all [e, ct, litVars], by simp⟩, by simp [Plain]⟩
  · refine ⟨⟨fun n hn => .sub (t := e X) (by simp) ?_, ?_⟩, by simp [Plain]⟩
    · rcases hn with hn | ⟨z, hz, hn⟩ <;> simp_all [e, p, X, ct, litVars]
    · intro u hu
      simp only [List.mem_cons, BLit.sub.injEq, List.not_mem_nil, or_false] at hu
      subst hu; exact ⟨_, _, rfl⟩
  · refine ⟨⟨fun n hn => .sub (t := p X) (by simp) ?_, ?_⟩, by simp [Plain]⟩
    · rcases hn with hn | ⟨z, hz, hn⟩ <;> simp_all [e, p, X, ct, litVars]
    · intro u hu
      simp only [List.mem_cons, BLit.sub.injEq, List.not_mem_nil, or_false, or_self] at hu
      subst hu; exact ⟨_, _, rfl⟩

-- two iterations; the solution is `p(a) = 1/2`, `p(b) = 1/4`
example : newton (cfg sq) isOne qstar 40 40 2 (some 2) =
    some ([(p (ct "a"), 3/8), (e (ct "a"), 1/4), (p (ct "b"), 39/160), (e (ct "b"), 3/16)], .done) := by decide +kernel

private theorem sq_star : StarAll (cfg sq) isOne qstar 40 40 2 :=
  starAll fun t ht => by
    rcases t with _ | _ | t
    · have : ((nth (cfg sq) isOne qstar 40 40 0).map fun st => starOk qstar 40 40 st.changeP) = some true := by decide +kernel
      simp [this]
    · have : ((nth (cfg sq) isOne qstar 40 40 1).map fun st => starOk qstar 40 40 st.changeP) = some true := by decide +kernel
      simp [this]
    · omega

-- the hypotheses of `C60_steps` hold for it
example : ∃ c t u, newton (cfg sq) isOne qstar 40 40 2 (some 2) = some (c, .done) ∧ NSteps sq t u ∧ NStep sq u (value c) := by
  have h : ((newton (cfg sq) isOne qstar 40 40 2 (some 2)).map Prod.snd) = some .done := by decide +kernel
  obtain ⟨⟨c, sg⟩, he, rfl⟩ := Option.map_eq_some_iff.1 h
  obtain ⟨t, u, h1, h2, _⟩ := C60_steps (g := cfg sq) (by simp [cfg]) (by simp [cfg]) (one? := isOne) (by simp [isOne]) sq_ok sq_star he
  exact ⟨c, t, u, he, h1, h2⟩

private def pr (x y : Tm) : Tm := .app [ct "p", x, y]
private def ed (x y : Tm) : Tm := .app [ct "e", x, y]

/-- `e(a,b) += 2.  e(b,c) += 3.  p(X,Z) += e(X,Y) * 5 * e(Y,Z).` -/
private def two : List (SRule ℚ) :=
  [⟨ed (ct "a") (ct "b"), [.val 2]⟩, ⟨ed (ct "b") (ct "c"), [.val 3]⟩, ⟨pr X (.var 2), [.sub (ed X (.var 1)), .val 5, .sub (ed (.var 1) (.var 2))]⟩]

private theorem two_ok : ∀ r ∈ (cfg two).rules, Safe r ∧ Plain r := by
  intro r hr
  simp only [cfg, two, List.mem_cons, List.not_mem_nil, or_false] at hr
  rcases hr with rfl | rfl | rfl
  · exact ⟨⟨fun n hn => by rcases hn with hn | ⟨z, hz, hn⟩ <;> simp_all [ed, ct, litVars], by simp⟩, by simp [Plain]⟩
  · exact ⟨⟨fun n hn => by rcases hn with hn | ⟨z, hz, hn⟩ <;> simp_all [ed, ct, litVars], by simp⟩, by simp [Plain]⟩
  · refine ⟨⟨fun n hn => ?_, ?_⟩, by simp [Plain]⟩
    · have : n = 0 ∨ n = 1 ∨ n = 2 := by
        rcases hn with hn | ⟨z, hz, hn⟩
        · simp [pr, X, ct] at hn; tauto
        · simp only [List.mem_cons, List.not_mem_nil, or_false] at hz
          rcases hz with rfl | rfl | rfl <;> simp [ed, X, ct, litVars] at hn <;> tauto
      rcases this with rfl | rfl | rfl
      · exact .sub (t := ed X (.var 1)) (by simp) (by simp [ed, X])
      · exact .sub (t := ed X (.var 1)) (by simp) (by simp [ed, X])
      · exact .sub (t := ed (.var 1) (.var 2)) (by simp) (by simp [ed, X])
    · intro u hu
      simp only [List.mem_cons, BLit.sub.injEq, List.not_mem_nil, or_false, reduceCtorEq, false_or] at hu
      rcases hu with rfl | rfl <;> exact ⟨_, _, rfl⟩

private theorem two_star : StarAll (cfg two) isOne qstar 40 40 3 :=
  starAll fun t ht => by
    rcases t with _ | _ | _ | t
    · have : ((nth (cfg two) isOne qstar 40 40 0).map fun st => starOk qstar 40 40 st.changeP) = some true := by decide +kernel
      simp [this]
    · have : ((nth (cfg two) isOne qstar 40 40 1).map fun st => starOk qstar 40 40 st.changeP) = some true := by decide +kernel
      simp [this]
    · have : ((nth (cfg two) isOne qstar 40 40 2).map fun st => starOk qstar 40 40 st.changeP) = some true := by decide +kernel
      simp [this]
    · omega

-- the hypotheses of `C60_fixpoint_cancel` hold for it
example : ∃ c, newton (cfg two) isOne qstar 40 40 3 none = some (c, .done) ∧ value c (pr (ct "a") (ct "c")) = 30 ∧
    ∀ x, value c x = rhs two (value c) x := by
  have h : newton (cfg two) isOne qstar 40 40 3 none =
      some ([(ed (ct "a") (ct "b"), 2), (ed (ct "b") (ct "c"), 3), (pr (ct "a") (ct "c"), 30)], .done) := by decide +kernel
  exact ⟨_, h, by decide +kernel, C60_fixpoint_cancel (g := cfg two) (by simp [cfg]) (by simp [cfg]) (by simp [isOne]) two_ok two_star h⟩

/-- `g += 2.  f += g * (1 < 3).` -/
private def guard : List (SRule ℚ) := [⟨.app [ct "g"], [.val 2]⟩,
  ⟨.app [ct "f"], [.sub (.app [ct "g"]), .cmp (fun x y => x = ct "1" && y = ct "3") (ct "1") (ct "3")]⟩]

/-- Builtins are not covered: a rule with one subgoal and a constraint counts as nonlinear, and its derivations have
no two changes to be multiplied, so they are never added; `f` keeps the value 0, though its equation demands 2. -/
theorem C60_builtin_lost : ∃ c, newton (cfg guard) isOne qstar 40 40 4 none = some (c, .done) ∧ value c (.app [ct "f"]) = 0 ∧
    rhs guard (value c) (.app [ct "f"]) = 2 := by
  have h : newton (cfg guard) isOne qstar 40 40 4 none = some ([(.app [ct "g"], 2)], .done) := by decide +kernel
  refine ⟨_, h, by decide +kernel, ?_⟩
  have e : stepF (K := ℚ) (cfg guard) 40 [(.app [ct "g"], 2)] = some ([(.app [ct "g"], 2), (.app [ct "f"], 2)], .done) := by decide +kernel
  have hs : ∀ r ∈ (cfg guard).rules, Safe r := by
    intro r hr
    simp only [cfg, guard, List.mem_cons, List.not_mem_nil, or_false] at hr
    rcases hr with rfl | rfl
    · exact ⟨fun n hn => by rcases hn with hn | ⟨z, hz, hn⟩ <;> simp_all [ct, litVars], by simp⟩
    · refine ⟨fun n hn => ?_, by intro u hu; simp at hu; exact ⟨_, _, hu⟩⟩
      rcases hn with hn | ⟨z, hz, hn⟩
      · simp [ct] at hn
      · simp only [List.mem_cons, List.not_mem_nil, or_false] at hz
        rcases hz with rfl | rfl <;> simp [litVars, ct] at hn
  have := (step_value (g := cfg guard) (by simp [cfg]) hs ⟨by simp [Dict.WF, Dict.keys], by
    intro x hx
    simp [Dict.keys] at hx
    subst hx
    exact (by simp [Ground, ct])⟩ e).2 (.app [ct "f"])
  exact this.symm

/-- `e(a,b) += true.  e(b,a) += true.  p(X,Y) += e(X,Y).  p(X,Z) += p(X,Y) * p(Y,Z).` -/
private def tc : List (SRule TV) :=
  [⟨ed (ct "a") (ct "b"), [.val 1]⟩, ⟨ed (ct "b") (ct "a"), [.val 1]⟩, ⟨pr X (.var 1), [.sub (ed X (.var 1))]⟩,
   ⟨pr X (.var 2), [.sub (pr X (.var 1)), .sub (pr (.var 1) (.var 2))]⟩]

private def cfgT (rules : List (SRule TV)) : Cfg TV := ⟨rules, fun c => c == 0, 1, fun a b => a == b, fun a b => a == b⟩

private theorem tc_ok : ∀ r ∈ (cfgT tc).rules, Safe r ∧ Plain r := by
  intro r hr
  simp only [cfgT, tc, List.mem_cons, List.not_mem_nil, or_false] at hr
  rcases hr with rfl | rfl | rfl | rfl
  · exact ⟨⟨fun n hn => by rcases hn with hn | ⟨z, hz, hn⟩ <;> simp_all [ed, ct, litVars], by simp⟩, by simp [Plain]⟩
  · exact ⟨⟨fun n hn => by rcases hn with hn | ⟨z, hz, hn⟩ <;> simp_all [ed, ct, litVars], by simp⟩, by simp [Plain]⟩
  · refine ⟨⟨fun n hn => .sub (t := ed X (.var 1)) (by simp) ?_, ?_⟩, by simp [Plain]⟩
    · rcases hn with hn | ⟨z, hz, hn⟩ <;> simp_all [ed, pr, X, ct, litVars]
    · intro u hu
      simp only [List.mem_cons, BLit.sub.injEq, List.not_mem_nil, or_false] at hu
      subst hu; exact ⟨_, _, rfl⟩
  · refine ⟨⟨fun n hn => ?_, ?_⟩, by simp [Plain]⟩
    · have : n = 0 ∨ n = 1 ∨ n = 2 := by
        rcases hn with hn | ⟨z, hz, hn⟩
        · simp [pr, X, ct] at hn; tauto
        · simp only [List.mem_cons, List.not_mem_nil, or_false] at hz
          rcases hz with rfl | rfl <;> simp [pr, X, ct, litVars] at hn <;> tauto
      rcases this with rfl | rfl | rfl
      · exact .sub (t := pr X (.var 1)) (by simp) (by simp [pr, X])
      · exact .sub (t := pr X (.var 1)) (by simp) (by simp [pr, X])
      · exact .sub (t := pr (.var 1) (.var 2)) (by simp) (by simp [pr, X])
    · intro u hu
      simp only [List.mem_cons, BLit.sub.injEq, List.not_mem_nil, or_false] at hu
      rcases hu with rfl | rfl <;> exact ⟨_, _, rfl⟩

-- the hypotheses of `C60_least` on the order hold for the nonnegative reals with infinity and for truth values
example : ∀ c x : ENNReal, c ≤ x → ∃ m, ∀ z, c + z ≤ x ↔ z ≤ m := by
  intro c x hc
  rcases eq_or_ne c ⊤ with rfl | h
  · obtain rfl := top_le_iff.1 hc
    exact ⟨⊤, fun z => by simp⟩
  · refine ⟨x - c, fun z => ⟨fun hz => ENNReal.le_sub_of_add_le_left h hz, fun hz => ?_⟩⟩
    calc c + z ≤ c + (x - c) := by gcongr
      _ = x := add_tsub_cancel_of_le hc

open LinSolve (tv_cases) in
private theorem tv_res : ∀ c x : TV, c ≤ x → ∃ m, ∀ z, c + z ≤ x ↔ z ≤ m := by
  intro c x h
  refine ⟨x, fun z => ?_⟩
  rcases tv_cases c with rfl | rfl <;> rcases tv_cases x with rfl | rfl <;> rcases tv_cases z with rfl | rfl <;>
    first | decide | exact absurd h (by decide)

open LinSolve (tv_cases) in
-- a run that meets all hypotheses of `C60_least`
example : ∃ c, newton (cfgT tc) (fun c => c == 1) (fun _ => 1) 60 60 3 none = some (c, .done) ∧ value c (pr (ct "a") (ct "a")) = 1 ∧
    Closed tc (value c) ∧ ∀ v, Closed tc v → ∀ x, value c x ≤ v x := by
  have h : ((newton (cfgT tc) (fun c => c == 1) (fun _ => 1) 60 60 3 none).map fun p => (p.2, value p.1 (pr (ct "a") (ct "a")))) =
      some (.done, 1) := by decide +kernel
  obtain ⟨⟨c, sg⟩, he, h2⟩ := Option.map_eq_some_iff.1 h
  simp only [Prod.mk.injEq] at h2
  obtain ⟨rfl, h2⟩ := h2
  obtain ⟨h3, h4⟩ := C60_least (fun k => by rcases tv_cases k with rfl | rfl <;> decide) tv_res (g := cfgT tc) (by simp [cfgT]) (by simp [cfgT])
    (by simp) tc_ok (star := fun _ => 1) (fun _ => rfl) (by
      intro a b x h
      rcases tv_cases a with rfl | rfl <;> rcases tv_cases b with rfl | rfl <;> rcases tv_cases x with rfl | rfl <;>
        first | decide | exact absurd h (by decide)) he
  exact ⟨c, he, h2, h4 rfl, h3⟩

end Examples

end Newton
end Verif
