/-
Property C59: the linear solver `kleene_linsolve`.  The equations are those of `SolverThm`: the value of an item
is the sum over all ground instances of all rules (`Solver.rhs`).
-/
import Verif.LinSolve
import Verif.NaiveThm
import Verif.KleeneThm

set_option linter.unusedSectionVars false
set_option linter.unusedSimpArgs false

namespace Verif
open Tm Heap

namespace LinSolve
open Solver (forEach forEach_restores forEach_cons_done RunCalls litVars ground_val value dataAt litVal instVal contrib rhs
  Safe GSub InRule Bnd noHeap good_noHeap restr restr_in restr_head Sat LitSat plus)
open Query
open Sem (TV)
open Naive
variable {K : Type} [CommSemiring K]

/-! ### Specification -/

/-- a rule without builtins: its body consists of constants and ordinary subgoals -/
def Plain (r : SRule K) : Prop := ∀ z ∈ r.body, (∃ k, z = .val k) ∨ ∃ t, z = .sub t

/-! ### The instances found by a lookup -/

/-- The yields of a conjunction are the satisfying ground instances of the rule, each once. -/
theorem yields_enum {r : SRule K} (hr : Safe r) {zs : List (Src K × BLit K)} (hmem : ∀ z, z ∈ r.body ↔ z ∈ zs.map Prod.snd)
    (hok : ∀ p ∈ zs, p.1.Ok) (hf : ∀ p ∈ zs, Fun1 p.1) {L : List (List K × Heap)} (hL : Yields id noHeap zs L) :
    (L.map fun p => restr r (res p.2)).Nodup ∧
    (∀ p ∈ L, restr r (res p.2) ∈ GSub r ∧ List.Forall₂ (Sat1 id (restr r (res p.2))) zs p.1) ∧
    (∀ θ ∈ GSub r, ∀ vs, List.Forall₂ (Sat1 id θ) zs vs → ∃ p ∈ L, restr r (res p.2) = θ ∧ p.1 = vs) := by
  classical
  have hs : ∀ p ∈ L, List.Forall₂ (Sat1 id (res p.2)) zs p.1 := fun p hp => (hL.sound p hp _ (hL.good p hp).respects_res).2
  have hgr : ∀ p ∈ L, ∀ n, InRule r n → Ground (res p.2 n) := fun p hp n hn => yield_ground hr hmem hok (hs p hp) hn
  have hin : ∀ z ∈ zs, ∀ n ∈ litVars z.2, InRule r n := fun z hz n hn =>
    .inr ⟨z.2, (hmem _).2 (List.mem_map.2 ⟨z, hz, rfl⟩), hn⟩
  have hvs : ∀ p ∈ L, ∀ θ, (∀ n, InRule r n → θ n = res p.2 n) → List.Forall₂ (Sat1 id θ) zs p.1 := by
    intro p hp θ hθ
    have : ∀ (zs : List (Src K × BLit K)) vs, (∀ z ∈ zs, ∀ n ∈ litVars z.2, θ n = res p.2 n) →
        List.Forall₂ (Sat1 id (res p.2)) zs vs → List.Forall₂ (Sat1 id θ) zs vs := by
      intro zs vs hz h
      induction h with
      | nil => exact .nil
      | @cons z b zs vs h1 _ ih =>
        refine .cons ?_ (ih fun z hz' => hz z (by simp [hz']))
        have hz := hz z (by simp)
        obtain ⟨src, z⟩ := z
        cases z with
        | val k => exact h1
        | sub t => simp only [Sat1, litVars] at *; rw [sub_congr hz]; exact h1
        | eq u v =>
          simp only [Sat1, litVars, Finset.mem_union] at *
          rw [sub_congr fun n hn => hz n (.inl hn), sub_congr fun n hn => hz n (.inr hn)]; exact h1
        | cmp o u v =>
          simp only [Sat1, litVars, Finset.mem_union] at *
          rw [sub_congr fun n hn => hz n (.inl hn), sub_congr fun n hn => hz n (.inr hn)]; exact h1
    exact this zs p.1 (fun z hz n hn => hθ n (hin z hz n hn)) (hs p hp)
  have hres : ∀ p ∈ L, restr r (res p.2) ∈ GSub r := fun p hp =>
    ⟨fun n hn => by rw [restr_in hn]; exact hgr p hp n hn, fun n hn => by simp [restr, hn]⟩
  have huniq : ∀ θ vs vs', List.Forall₂ (Sat1 id θ) zs vs → List.Forall₂ (Sat1 id θ) zs vs' → vs = vs' := by
    intro θ vs vs' h1 h2
    have : ∀ (zs : List (Src K × BLit K)) vs vs', (∀ p ∈ zs, Fun1 p.1) → List.Forall₂ (Sat1 id θ) zs vs →
        List.Forall₂ (Sat1 id θ) zs vs' → vs = vs' := by
      intro zs
      induction zs with
      | nil => intro vs vs' _ h1 h2; cases h1; cases h2; rfl
      | cons z zs ih =>
        intro vs vs' hf h1 h2
        cases h1 with
        | cons a1 b1 => cases h2 with
          | cons a2 b2 =>
            rw [ih _ _ (fun p hp => hf p (by simp [hp])) b1 b2, ← srcVal_sat (hf z (by simp)) a1, ← srcVal_sat (hf z (by simp)) a2]
    exact this zs vs vs' hf h1 h2
  refine ⟨?_, fun p hp => ⟨hres p hp, hvs p hp _ fun n hn => restr_in hn⟩, ?_⟩
  · unfold List.Nodup
    rw [List.pairwise_map]
    refine hL.disjoint.imp_of_mem ?_
    intro p p' hp hp' hd e
    have hagree : ∀ n, InRule r n → res p.2 n = res p'.2 n := by
      intro n hn
      have := congrFun e n
      rwa [restr_in hn, restr_in hn] at this
    refine hd ?_ (res p.2) (res p'.2) (fun z hz n hn => hagree n (hin z hz n hn)) (hL.good p hp).respects_res (hL.good p' hp').respects_res
    exact huniq (res p.2) _ _ (hs p hp) (hvs p' hp' _ hagree)
  · intro θ g vs h1
    obtain ⟨p, hp, h2, h3⟩ := hL.complete θ vs (Solver.respects_noHeap θ) h1
    refine ⟨p, hp, ?_, h3⟩
    funext n
    by_cases hn : InRule r n
    · rw [restr_in hn]
      have h4 := Solver.sub_eq_of_ground (hL.good p hp) (x := .var n) (by simpa using hgr p hp n hn) h2
      simpa using h4.symm
    · rw [g.2 n hn]; simp [restr, hn]

/-- A sum over the yields is a sum over the instances. -/
theorem yields_sumG {r : SRule K} (hr : Safe r) {zs : List (Src K × BLit K)} (hmem : ∀ z, z ∈ r.body ↔ z ∈ zs.map Prod.snd)
    (hok : ∀ p ∈ zs, p.1.Ok) (hf : ∀ p ∈ zs, Fun1 p.1) {L : List (List K × Heap)} (hL : Yields id noHeap zs L)
    {F G : (Nat → Tm) → K} (hG : ∀ θ, θ ∈ GSub r → (∃ vs, List.Forall₂ (Sat1 id θ) zs vs) → G θ = F θ)
    (h0 : ∀ θ, G θ ≠ 0 → θ ∈ GSub r ∧ ∃ vs, List.Forall₂ (Sat1 id θ) zs vs) :
    (L.map fun p => F (restr r (res p.2))).sum = ∑ᶠ θ, G θ := by
  classical
  obtain ⟨hnd, hin, hex⟩ := yields_enum hr hmem hok hf hL
  have hsup : Function.support G ⊆ ↑(L.map fun p => restr r (res p.2)).toFinset := by
    intro θ hθ
    obtain ⟨g, vs, h1⟩ := h0 θ hθ
    obtain ⟨p, hp, e, _⟩ := hex θ g vs h1
    simp only [List.coe_toFinset, Set.mem_setOf_eq, List.mem_map]
    exact ⟨p, hp, e⟩
  rw [finsum_eq_sum_of_support_subset _ hsup, List.sum_toFinset _ hnd, List.map_map]
  congr 1
  refine List.map_congr_left fun p hp => ?_
  obtain ⟨h1, h2⟩ := hin p hp
  exact (hG _ h1 ⟨_, h2⟩).symm

/-! ### The estimated support -/

omit [CommSemiring K] in
theorem mem_bool {r : SRule K} {z : BLit TV} : z ∈ (boolRule r).body ↔ ∃ z' ∈ r.body, boolLit z' = some z := by
  simp [boolRule, List.mem_filterMap]

omit [CommSemiring K] in
theorem mem_bool_sub {r : SRule K} {t : Tm} : BLit.sub t ∈ (boolRule r).body ↔ BLit.sub t ∈ r.body := by
  rw [mem_bool]
  constructor
  · rintro ⟨z, hz, e⟩
    cases z <;> simp [boolLit] at e
    subst e; exact hz
  · intro h; exact ⟨_, h, rfl⟩

omit [CommSemiring K] in
theorem mem_bool_eq {r : SRule K} {x y : Tm} : BLit.eq x y ∈ (boolRule r).body ↔ BLit.eq x y ∈ r.body := by
  rw [mem_bool]
  constructor
  · rintro ⟨z, hz, e⟩
    cases z <;> simp [boolLit] at e
    obtain ⟨rfl, rfl⟩ := e; exact hz
  · intro h; exact ⟨_, h, rfl⟩

omit [CommSemiring K] in
theorem bool_inRule {r : SRule K} (n : Nat) : InRule (boolRule r) n ↔ InRule r n := by
  unfold InRule Solver.InBody
  refine or_congr Iff.rfl ?_
  constructor
  · rintro ⟨z, hz, hn⟩
    obtain ⟨z', hz', e⟩ := mem_bool.1 hz
    refine ⟨z', hz', ?_⟩
    cases z' <;> simp [boolLit] at e <;> subst e <;> exact hn
  · rintro ⟨z, hz, hn⟩
    cases z with
    | val k => simp [litVars] at hn
    | sub t => exact ⟨_, mem_bool.2 ⟨_, hz, rfl⟩, hn⟩
    | eq x y => exact ⟨_, mem_bool.2 ⟨_, hz, rfl⟩, hn⟩
    | cmp o x y => exact ⟨_, mem_bool.2 ⟨_, hz, rfl⟩, hn⟩

omit [CommSemiring K] in
theorem bool_safe {r : SRule K} (h : Safe r) : Safe (boolRule r) := by
  refine ⟨fun n hn => ?_, fun t ht => h.fn t (mem_bool_sub.1 ht)⟩
  have := h.bnd n ((bool_inRule n).1 hn)
  clear hn
  induction this with
  | sub h1 h2 => exact .sub (mem_bool_sub.2 h1) h2
  | eqr h1 _ h3 ih => exact .eqr (mem_bool_eq.2 h1) ih h3
  | eql h1 _ h3 ih => exact .eql (mem_bool_eq.2 h1) ih h3

omit [CommSemiring K] in
theorem bool_gsub {r : SRule K} {θ : Nat → Tm} : θ ∈ GSub (boolRule r) ↔ θ ∈ GSub r := by
  unfold GSub
  simp only [Set.mem_setOf_eq, bool_inRule]

theorem booleanize_safe {rules : List (SRule K)} (h : ∀ r ∈ rules, Safe r) : ∀ r ∈ (booleanize rules).rules, Safe r := by
  intro r hr
  obtain ⟨r', h', rfl⟩ := List.mem_map.1 hr
  exact bool_safe (h r' h')

theorem bool_dead {rules : List (SRule K)} : ∀ c, (booleanize rules).dead c = true → c = 0 := by
  intro c h; simpa [booleanize] using h

theorem bool_close {rules : List (SRule K)} : ∀ a b, (booleanize rules).close a b = true → a = b := by
  intro a b h; simpa [booleanize] using h

/-- the loop of `agenda` is a run of the agenda -/
theorem agenda_run {W : Type} [CommSemiring W] {g : Naive.Cfg W} {f n : Nat} {b : Dict Tm W} (e : agenda g f n = some (b, .done)) :
    ∃ st, AgRun g st ∧ st.change = [] ∧ st.new = b := by
  have loop : ∀ n st st', AgRun g st → agendaLoop g f n st = some (st', .done) → AgRun g st' ∧ st'.change = [] := by
    intro n
    induction n with
    | zero => intro st st' _ e; simp [agendaLoop] at e
    | succ n ih =>
      intro st st' h e
      rw [agendaLoop] at e
      split at e
      · rename_i hc
        simp only [Option.some.injEq, Prod.mk.injEq, and_true] at e
        subst e
        exact ⟨h, hc⟩
      · split at e
        · simp at e
        · rename_i s1 e1
          exact ih s1 st' (.step h ⟨f, 0, e1⟩) e
        · rename_i r hne _
          simp only [Option.some.injEq] at e
          exact (hne _ e).elim
  unfold agenda at e
  split at e
  · simp at e
  · rename_i c ec
    obtain ⟨⟨st, sig⟩, e1, e2⟩ := Option.map_eq_some_iff.1 e
    simp only [Prod.mk.injEq] at e2
    obtain ⟨rfl, rfl⟩ := e2
    obtain ⟨h1, h2⟩ := loop n _ _ (.init ⟨f, c, ec, rfl⟩) e1
    exact ⟨st, h1, h2, rfl⟩
  · rename_i hne _
    simp only [Option.some.injEq, Prod.mk.injEq] at e
    exact (hne e.2).elim

theorem tv_cases (a : TV) : a = 0 ∨ a = 1 := by cases a <;> simp [show (0 : TV) = TV.f from rfl, show (1 : TV) = TV.t from rfl]

theorem tv_one_add (a : TV) : 1 + a = 1 := rfl

theorem tv_add_one (a : TV) : a + 1 = 1 := by rw [add_comm]; rfl

/-- charts of the Boolean agenda hold no false items -/
theorem addTo_true {d : Dict Tm TV} {x : Tm} {c : TV} (h : ∀ e ∈ d, e.2 = 1) : ∀ e ∈ addTo (fun c => c == 0) d x c, e.2 = 1 := by
  unfold addTo
  split
  · exact h
  · rename_i hc
    have hc : c = 1 := by
      rcases tv_cases c with rfl | rfl
      · simp at hc
      · rfl
    subst hc
    have hp : plus (d.get x) (1 : TV) = 1 := by
      cases d.get x with
      | none => rfl
      | some v => exact tv_add_one v
    rw [hp]
    clear hp hc
    induction d with
    | nil => intro e he; simp [Dict.set] at he; subst he; rfl
    | cons a d ih =>
      obtain ⟨k, v⟩ := a
      intro e he
      simp only [Dict.set] at he
      split at he
      · rcases List.mem_cons.1 he with rfl | he
        · rfl
        · exact h e (by simp [he])
      · rcases List.mem_cons.1 he with rfl | he
        · exact h _ (by simp)
        · exact ih (fun e he => h e (by simp [he])) e he

theorem run_true {rules : List (SRule K)} {st : AgSt TV} (h : AgRun (booleanize rules) st) : ∀ e ∈ st.new, e.2 = 1 := by
  induction h with
  | init h => obtain ⟨f, c, _, rfl⟩ := h; simp
  | @step st st' _ hst ih =>
    obtain ⟨f, i, e⟩ := hst
    have key : ∀ u Δ, ∀ e ∈ addTo (booleanize rules).dead st.new u Δ, e.2 = 1 := fun u Δ => addTo_true ih
    unfold agStep at e
    split at e
    · simp at e
    · rename_i u Δ hget
      simp only at e
      split at e
      · simp only [Option.some.injEq, Prod.mk.injEq, and_true] at e
        subst e; exact key u Δ
      · split at e
        · simp at e
        · simp only [Option.some.injEq, Prod.mk.injEq, and_true] at e
          subst e; exact key u Δ
        · simp only [Option.some.injEq, Prod.mk.injEq] at e
          obtain ⟨rfl, _⟩ := e; exact key u Δ

/-- what the first phase establishes: ground items, closed under the rules -/
structure Supp (rules : List (SRule K)) (b : Dict Tm TV) : Prop where
  ok : OkD b
  closed : ∀ r ∈ rules, ∀ θ ∈ GSub r, (∀ z ∈ r.body, match z with
    | .val _ => True
    | .sub t => t.sub θ ∈ Dict.keys b
    | .eq x y => x.sub θ = y.sub θ
    | .cmp o x y => o (x.sub θ) (y.sub θ) = true) → r.head.sub θ ∈ Dict.keys b

theorem list_sum_true {l : List TV} (h : (1 : TV) ∈ l) : l.sum = 1 := by
  induction l with
  | nil => simp at h
  | cons a l ih =>
    rcases List.mem_cons.1 h with rfl | h
    · rfl
    · rw [List.sum_cons, ih h]; exact tv_add_one a

theorem supp_of_agenda {rules : List (SRule K)} (hr : ∀ r ∈ rules, Safe r) {f n : Nat} {b : Dict Tm TV}
    (e : agenda (booleanize rules) f n = some (b, .done)) : Supp rules b := by
  classical
  obtain ⟨st, hrun, hq, rfl⟩ := agenda_run e
  have hinv := ag_run bool_dead bool_close (booleanize_safe hr) hrun
  refine ⟨hinv.new, fun r hrm θ hθ hz => ?_⟩
  have hfix := C28_fixpoint bool_dead bool_close (booleanize_safe hr) hrun hq (r.head.sub θ)
  have hv : ∀ x ∈ Dict.keys st.new, value st.new x = 1 := by
    intro x hx
    obtain ⟨v, hv⟩ := (Dict.mem_keys_iff_get _ _).1 hx
    have := run_true hrun _ (Dict.mem_of_get hv)
    simp only at this
    subst this
    simp [value, hv]
  have h1 : Solver.instAt (boolRule r) (value st.new) (r.head.sub θ) θ = 1 := by
    unfold Solver.instAt
    rw [if_pos ⟨bool_gsub.2 hθ, rfl⟩]
    unfold instVal
    refine List.prod_eq_one ?_
    intro a ha
    obtain ⟨z, hzm, rfl⟩ := List.mem_map.1 ha
    obtain ⟨z', hz', e'⟩ := mem_bool.1 hzm
    have := hz z' hz'
    cases z' with
    | val k => simp [boolLit] at e'
    | sub t => simp only [boolLit, Option.some.injEq] at e'; subst e'; exact hv _ this
    | eq x y => simp only [boolLit, Option.some.injEq] at e'; subst e'; simpa [litVal] using this
    | cmp o x y => simp only [boolLit, Option.some.injEq] at e'; subst e'; simp only [litVal]; rw [if_pos this]
  have h2 : contrib (boolRule r) (value st.new) (r.head.sub θ) = 1 := by
    have hfin := Solver.C23_finite (bool_safe (hr r hrm)) st.new (r.head.sub θ)
    unfold contrib
    rw [finsum_eq_sum _ hfin, ← Finset.add_sum_erase (a := θ) _ _ (by
      rw [Set.Finite.mem_toFinset, Function.mem_support, h1]; decide), h1]
    exact tv_one_add _
  have h3 : value st.new (r.head.sub θ) = 1 := by
    rw [hfix]
    exact list_sum_true (List.mem_map.2 ⟨boolRule r, List.mem_map.2 ⟨r, hrm, rfl⟩, h2⟩)
  by_contra hn
  have : Dict.get st.new (r.head.sub θ) = none := (Dict.get_eq_none_iff _ _).2 hn
  rw [value, this] at h3
  exact absurd h3 (by decide)

/-! ### Building the system -/

/-- the right-hand side of the equation of `x` in the system `s`, at the values `w` -/
def total (s : MV K) (w : Tm → K) (x : Tm) : K :=
  (s.V.get x).getD 0 + ((List.filter (fun e => decide (e.1.1 = x)) s.M).map fun e => e.2 * w e.1.2).sum

theorem row_set (M : Dict (Tm × Tm) K) (x y : Tm) (c : K) (w : Tm → K) (x' : Tm) :
    ((List.filter (fun e => decide (e.1.1 = x')) (M.set (x, y) (plus (M.get (x, y)) c))).map fun e => e.2 * w e.1.2).sum =
      ((List.filter (fun e => decide (e.1.1 = x')) M).map fun e => e.2 * w e.1.2).sum + if x = x' then c * w y else 0 := by
  induction M with
  | nil => by_cases h : x = x' <;> simp [Dict.set, Dict.get, plus, h]
  | cons e M ih =>
    obtain ⟨⟨a, b⟩, v⟩ := e
    simp only [Dict.set, Dict.get]
    by_cases h : (a, b) = (x, y)
    · simp only [h, if_true, plus]
      obtain ⟨rfl, rfl⟩ := Prod.mk.inj h
      by_cases h2 : a = x'
      · simp only [List.filter_cons, h2, decide_true, if_true, List.map_cons, List.sum_cons, add_mul]
        ring
      · simp [List.filter_cons, h2]
    · simp only [h, if_false]
      by_cases h2 : a = x'
      · simp only [List.filter_cons, h2, decide_true, if_true, List.map_cons, List.sum_cons]
        rw [ih]; ring
      · simp only [List.filter_cons, h2, decide_false, Bool.false_eq_true, if_false]
        exact ih

/-- the items of the system are in the estimated support -/
structure OkMV (P : Tm → Prop) (s : MV K) : Prop where
  wf : s.M.WF
  row : ∀ k ∈ s.M.keys, P k.1 ∧ P k.2
  vec : ∀ k ∈ s.V.keys, P k

/-- from `s` to `s'` the equations grow by `δ`, at values that vanish outside of `P` -/
structure AddsMV (P : Tm → Prop) (s s' : MV K) (δ : (Tm → K) → Tm → K) : Prop where
  inv : OkMV P s → OkMV P s'
  tot : ∀ w x, (∀ y, ¬ P y → w y = 0) → total s' w x = total s w x + δ w x

theorem AddsMV.refl (P : Tm → Prop) (s : MV K) : AddsMV P s s (fun _ _ => 0) := ⟨id, by simp⟩

theorem AddsMV.trans {P : Tm → Prop} {s s' s'' : MV K} {δ δ' : (Tm → K) → Tm → K} (h : AddsMV P s s' δ) (h' : AddsMV P s' s'' δ') :
    AddsMV P s s'' (fun w x => δ w x + δ' w x) :=
  ⟨fun i => h'.inv (h.inv i), fun w x hw => by rw [h'.tot w x hw, h.tot w x hw, add_assoc]⟩

theorem calls_addsMV {α : Type} {P : Tm → Prop} {k : α → Body (MV K)} {δ : α × Heap → (Tm → K) → Tm → K} {L : List (α × Heap)} {s s' : MV K}
    (h : RunCalls k L s s') (hk : ∀ p ∈ L, ∀ s s', k p.1 p.2 s = some (p.2, s', .done) → AddsMV P s s' (δ p)) :
    AddsMV P s s' (fun w x => (L.map fun p => δ p w x).sum) := by
  induction h with
  | nil => simpa using AddsMV.refl P _
  | cons e _ ih =>
    have h1 := hk _ List.mem_cons_self _ _ e
    have h2 := ih fun p hp => hk p (by simp [hp])
    simpa using h1.trans h2

theorem forEach_addsMV {α : Type} {P : Tm → Prop} {b : α → Body (MV K)} (hb : ∀ a, Restores (b a)) {δ : α → (Tm → K) → Tm → K} {h : Heap} :
    ∀ {l : List α} {s h' s'}, (∀ a ∈ l, ∀ s s', b a h s = some (h, s', .done) → AddsMV P s s' (δ a)) →
      forEach l b h s = some (h', s', .done) → AddsMV P s s' (fun w x => (l.map fun a => δ a w x).sum) := by
  intro l
  induction l with
  | nil =>
    intro s h' s' _ e
    simp only [forEach, Option.some.injEq, Prod.mk.injEq, and_true] at e
    obtain ⟨_, rfl⟩ := e
    simpa using AddsMV.refl P _
  | cons a l ih =>
    intro s h' s' hl e
    obtain ⟨h1, s1, e1, e2⟩ := forEach_cons_done e
    have := hb a _ _ _ _ _ e1
    subst this
    have a1 := hl a (by simp) _ _ e1
    have a2 := ih (fun b hb => hl b (by simp [hb])) e2
    simpa using a1.trans a2

theorem record_restores {f : Nat} {r : SRule K} : Restores (record f r) := by
  intro h s h' s' sig e
  unfold record at e
  split at e
  · split at e <;> first | (simp at e; exact e.1.symm) | simp at e
  · split at e <;> first | (simp at e; exact e.1.symm) | simp at e
  · simp at e; exact e.1.symm

/-- the monomial of an instance -/
def mono (r : SRule K) (w : Tm → K) (θ : Nat → Tm) : K := coeff r.body * ((unknowns r.body).map fun t => w (t.sub θ)).prod

theorem record_adds {P : Tm → Prop} {f : Nat} {r : SRule K} {h : Heap} (hP : P (r.head.sub (res h)))
    (hPt : ∀ t ∈ unknowns r.body, P (t.sub (res h))) {s h' s'} (e : record f r h s = some (h', s', .done)) :
    AddsMV P s s' (fun w x => if r.head.sub (res h) = x then mono r w (res h) else 0) := by
  unfold record at e
  split at e
  · rename_i hu
    split at e
    · rename_i x _ ed
      have hx := deref_eq_sub ed
      simp only [Option.some.injEq, Prod.mk.injEq, and_true] at e
      obtain ⟨_, rfl⟩ := e
      refine ⟨fun i => ⟨i.wf, i.row, ?_⟩, fun w y _ => ?_⟩
      · intro k hk
        rcases (Solver.mem_keys_set _ _ _ _).1 hk with rfl | hk
        · rw [hx]; exact hP
        · exact i.vec k hk
      · simp only [total, mono, hu, List.map_nil, List.prod_nil, mul_one, ← hx]
        rw [Dict.get_set]
        by_cases hxy : x = y
        · subst hxy
          simp only [if_true, Option.getD_some]
          cases Dict.get s.V x
          · simp only [plus, Option.getD_none, zero_add]; ring
          · simp only [plus, Option.getD_some]; ring
        · simp [hxy]
    · simp at e
    · simp at e
  · rename_i t hu
    split at e
    · rename_i x y _ _ ex ey
      have hx := deref_eq_sub ex
      have hy := deref_eq_sub ey
      simp only [Option.some.injEq, Prod.mk.injEq, and_true] at e
      obtain ⟨_, rfl⟩ := e
      refine ⟨fun i => ⟨i.wf.set _ _, ?_, i.vec⟩, fun w z _ => ?_⟩
      · intro k hk
        rcases (Solver.mem_keys_set _ _ _ _).1 hk with rfl | hk
        · exact ⟨hx ▸ hP, hy ▸ hPt t (by simp [hu])⟩
        · exact i.row k hk
      · simp only [total, mono, hu, List.map_cons, List.map_nil, List.prod_cons, List.prod_nil, mul_one, ← hx, ← hy]
        rw [row_set, add_assoc]
    · simp at e
    · simp at e
  · simp at e

theorem instVal_plain {r : SRule K} (hp : Plain r) (w : Tm → K) (θ : Nat → Tm) : instVal w r.body θ = mono r w θ := by
  have key : ∀ (b : List (BLit K)) (c : K), (∀ z ∈ b, (∃ k, z = .val k) ∨ ∃ t, z = .sub t) →
      c * instVal w b θ = (b.foldl (fun c z => match z with
        | .val k => c * k
        | _ => c) c) * ((unknowns b).map fun t => w (t.sub θ)).prod := by
    intro b
    induction b with
    | nil => intro c _; simp [instVal, unknowns]
    | cons z b ih =>
      intro c hb
      have hb' : ∀ z ∈ b, (∃ k, z = .val k) ∨ ∃ t, z = .sub t := fun z hz => hb z (by simp [hz])
      rcases hb z (by simp) with ⟨k, rfl⟩ | ⟨t, rfl⟩
      · simp only [List.foldl_cons]
        have : unknowns (BLit.val k :: b) = unknowns b := rfl
        rw [this, ← ih (c * k) hb']
        simp [instVal, litVal, mul_assoc]
      · simp only [List.foldl_cons]
        have : unknowns (BLit.sub t :: b) = t :: unknowns b := rfl
        rw [this, List.map_cons, List.prod_cons, mul_left_comm, ← ih c hb']
        simp [instVal, litVal, mul_left_comm]
  have := key r.body 1 hp
  rw [one_mul] at this
  exact this

theorem support_ok {b : Dict Tm TV} (hb : OkD b) : (support (K := K) b).Ok ∧ Fun1 (support (K := K) b) := by
  have hk : Dict.keys (b.map fun e => (e.1, (1 : K))) = Dict.keys b := by simp [Dict.keys, Function.comp_def]
  have hw : Dict.WF (b.map fun e => (e.1, (1 : K))) := by unfold Dict.WF; rw [hk]; exact hb.wf
  have : OkD (b.map fun e => (e.1, (1 : K))) := ⟨hw, by rw [hk]; exact hb.ground⟩
  exact ⟨this.src true, hw⟩

theorem mem_support {b : Dict Tm TV} {x : Tm} {c : K} : (x, c) ∈ (support (K := K) b).ent ↔ x ∈ Dict.keys b ∧ c = 1 := by
  simp only [support, List.mem_map, Prod.mk.injEq, Dict.keys]
  constructor
  · rintro ⟨e, he, rfl, rfl⟩; exact ⟨⟨e, he, rfl⟩, rfl⟩
  · rintro ⟨⟨e, he, rfl⟩, rfl⟩; exact ⟨e, he, rfl, rfl⟩

theorem sat_support {b : Dict Tm TV} {body : List (BLit K)} (hp : ∀ z ∈ body, (∃ k, z = .val k) ∨ ∃ t, z = .sub t) {θ : Nat → Tm} :
    (∃ vs, List.Forall₂ (Sat1 id θ) (body.map fun z => (support (K := K) b, z)) vs) ↔
      ∀ t, BLit.sub t ∈ body → t.sub θ ∈ Dict.keys b := by
  induction body with
  | nil => simp
  | cons z l ih =>
    have ih := ih fun z hz => hp z (by simp [hz])
    rcases hp z (by simp) with ⟨k, rfl⟩ | ⟨t, rfl⟩
    · constructor
      · rintro ⟨vs, h⟩ t ht
        cases h with
        | cons _ h2 => exact ih.1 ⟨_, h2⟩ t (by simpa using ht)
      · intro h
        obtain ⟨vs, hvs⟩ := ih.2 fun t ht => h t (by simp [ht])
        exact ⟨k :: vs, .cons ⟨rfl, rfl⟩ hvs⟩
    · constructor
      · rintro ⟨vs, h⟩ t' ht
        cases h with
        | cons h1 h2 =>
          rcases List.mem_cons.1 ht with h | h
          · injection h with h; subst h; exact (mem_support.1 h1).1
          · exact ih.1 ⟨_, h2⟩ t' h
      · intro h
        obtain ⟨vs, hvs⟩ := ih.2 fun t ht => h t (by simp [ht])
        exact ⟨1 :: vs, .cons (mem_support.2 ⟨h t (by simp), rfl⟩) hvs⟩

/-- one rule contributes its instances to the system -/
theorem rule_adds {rules : List (SRule K)} {b : Dict Tm TV} (hb : Supp rules b) {r : SRule K} (hrm : r ∈ rules) (hr : Safe r) (hp : Plain r)
    {f : Nat} {s h' s'} (e : getItem f id (support b) r.body (fun _ => record f r) noHeap s = some (h', s', .done)) :
    AddsMV (· ∈ Dict.keys b) s s' (fun w x => contrib r w x) := by
  classical
  obtain ⟨hok, hfn⟩ := support_ok (K := K) hb.ok
  obtain ⟨L, hL, hrun⟩ := getItem_spec hok (safe_fn hr) (fun _ => record_restores) good_noHeap e
  set zs := r.body.map fun z => (support (K := K) b, z) with hzs
  have hmem : ∀ z, z ∈ r.body ↔ z ∈ zs.map Prod.snd := by
    intro z; simp [hzs, List.map_map, Function.comp_def]
  have hok' : ∀ p ∈ zs, p.1.Ok := by
    intro p hp; obtain ⟨z, _, rfl⟩ := List.mem_map.1 hp; exact hok
  have hf' : ∀ p ∈ zs, Fun1 p.1 := by
    intro p hp; obtain ⟨z, _, rfl⟩ := List.mem_map.1 hp; exact hfn
  obtain ⟨_, hin, _⟩ := yields_enum hr hmem hok' hf' hL
  have hunk : ∀ t, t ∈ unknowns r.body ↔ BLit.sub t ∈ r.body := by
    intro t
    simp only [unknowns, List.mem_filterMap]
    constructor
    · rintro ⟨z, hz, ez⟩
      rcases hp z hz with ⟨k, rfl⟩ | ⟨t', rfl⟩
      · simp [asTerm] at ez
      · simp only [asTerm, Option.some.injEq] at ez; subst ez; exact hz
    · intro h; exact ⟨_, h, rfl⟩
  have hsub : ∀ p ∈ L, ∀ t, BLit.sub t ∈ r.body → t.sub (restr r (res p.2)) ∈ Dict.keys b := fun p hpL =>
    (sat_support hp).1 ⟨_, (hin p hpL).2⟩
  have hreseq : ∀ p ∈ L, ∀ t, BLit.sub t ∈ r.body → t.sub (restr r (res p.2)) = t.sub (res p.2) := fun p _ t ht => Solver.restr_sub ht
  have hcalls := calls_addsMV (P := (· ∈ Dict.keys b)) (δ := fun p w x => if r.head.sub (res p.2) = x then mono r w (res p.2) else 0) hrun (by
    intro p hpL s s' e
    refine record_adds ?_ ?_ e
    · have := hb.closed r hrm _ (hin p hpL).1 (by
        intro z hz
        rcases hp z hz with ⟨k, rfl⟩ | ⟨t, rfl⟩
        · trivial
        · exact hsub p hpL t hz)
      rwa [restr_head] at this
    · intro t ht
      rw [← hreseq p hpL t ((hunk t).1 ht)]
      exact hsub p hpL t ((hunk t).1 ht))
  refine ⟨hcalls.inv, fun w x hw => ?_⟩
  · rw [hcalls.tot w x hw]
    congr 1
    have hmono : ∀ p ∈ L, mono r w (restr r (res p.2)) = mono r w (res p.2) := by
      intro p hpL
      unfold mono
      congr 2
      refine List.map_congr_left fun t ht => ?_
      rw [hreseq p hpL t ((hunk t).1 ht)]
    have := yields_sumG hr hmem hok' hf' hL (F := fun θ => if r.head.sub θ = x then mono r w θ else 0)
      (G := Solver.instAt r w x) (by
        intro θ hθ _
        unfold Solver.instAt
        by_cases hx : r.head.sub θ = x
        · rw [if_pos ⟨hθ, hx⟩, if_pos hx, instVal_plain hp]
        · rw [if_neg (fun h => hx h.2), if_neg hx]) (by
        intro θ hθ
        unfold Solver.instAt at hθ
        split at hθ
        · rename_i hc
          refine ⟨hc.1, (sat_support hp).2 fun t ht => ?_⟩
          by_contra hn
          refine hθ ?_
          unfold instVal
          exact List.prod_eq_zero (List.mem_map.2 ⟨_, ht, by simpa [litVal] using hw _ hn⟩)
        · exact absurd rfl hθ)
    unfold contrib
    rw [← this]
    congr 1
    refine List.map_congr_left fun p hpL => ?_
    simp only [restr_head]
    rw [hmono p hpL]

theorem build_total {rules : List (SRule K)} {b : Dict Tm TV} (hb : Supp rules b) (hr : ∀ r ∈ rules, Safe r) (hp : ∀ r ∈ rules, Plain r)
    {f : Nat} {h' s} (e : buildMV f b rules = some (h', s, .done)) :
    OkMV (· ∈ Dict.keys b) s ∧ ∀ w x, (∀ y, y ∉ Dict.keys b → w y = 0) → total s w x = rhs rules w x := by
  have := forEach_addsMV (P := (· ∈ Dict.keys b)) (δ := fun r w x => contrib r w x)
    (fun r => getItem_restores fun _ => record_restores) (fun r hrm s s' e => rule_adds hb hrm (hr r hrm) (hp r hrm) e) e
  refine ⟨this.inv ⟨Dict.WF.nil, by simp, by simp⟩, fun w x hw => ?_⟩
  rw [this.tot w x hw]
  simp [total, rhs]

/-! ### Solving it -/

theorem mem_alphabet {M : Dict (Tm × Tm) K} {V : Dict Tm K} {x : Tm} (hx : x ∈ Kleene.alphabet M V) :
    (∃ k ∈ M.keys, x = k.1 ∨ x = k.2) ∨ x ∈ V.keys := by
  have hint : ∀ (ix : List Tm) (y : Tm), x ∈ Kleene.intern ix y → x ∈ ix ∨ x = y := by
    intro ix y h
    unfold Kleene.intern at h
    split at h
    · exact .inl h
    · simpa using h
  have h1 : ∀ (l : List Tm) ix, x ∈ l.foldl Kleene.intern ix → x ∈ ix ∨ x ∈ l := by
    intro l
    induction l with
    | nil => intro ix h; exact .inl h
    | cons a l ih =>
      intro ix h
      rcases ih _ h with h | h
      · rcases hint _ _ h with h | h
        · exact .inl h
        · exact .inr (by simp [h])
      · exact .inr (by simp [h])
  have h2 : ∀ (l : List (Tm × Tm)) ix, x ∈ l.foldl (fun ix ij => Kleene.intern (Kleene.intern ix ij.1) ij.2) ix →
      x ∈ ix ∨ ∃ k ∈ l, x = k.1 ∨ x = k.2 := by
    intro l
    induction l with
    | nil => intro ix h; exact .inl h
    | cons a l ih =>
      intro ix h
      rcases ih _ h with h | ⟨k, hk, h⟩
      · rcases hint _ _ h with h | h
        · rcases hint _ _ h with h | h
          · exact .inl h
          · exact .inr ⟨a, by simp, .inl h⟩
        · exact .inr ⟨a, by simp, .inr h⟩
      · exact .inr ⟨k, by simp [hk], h⟩
  rcases h1 _ _ hx with h | h
  · rcases h2 _ _ h with h | h
    · simp at h
    · exact .inl h
  · exact .inr h

theorem keys_solution (star : K → K) (s : MV K) : Dict.keys (solution star s) = Kleene.alphabet s.M s.V := by
  unfold Dict.keys solution
  rw [List.map_ofFn]
  exact List.ofFn_getElem

theorem wf_solution (star : K → K) (s : MV K) : Dict.WF (solution star s) := by
  unfold Dict.WF
  rw [keys_solution]
  exact (Kleene.alphabet_spec s.M s.V).1

theorem value_solution {star : K → K} {s : MV K} (x : Tm) : value (solution star s) x = Kleene.reported star s.M s.V x := by
  unfold Kleene.reported
  split
  · rename_i h
    have hm : (x, Kleene.linsolve star s.M s.V ⟨_, h⟩) ∈ solution star s := by
      refine List.mem_ofFn.2 ⟨⟨_, h⟩, ?_⟩
      simp
    rw [value, Dict.get_of_mem (wf_solution star s) hm]
    rfl
  · rename_i h
    have : x ∉ Dict.keys (solution star s) := by
      rw [keys_solution]; intro hx; exact h (List.idxOf_lt_length_iff.2 hx)
    rw [value, (Dict.get_eq_none_iff _ _).2 this]
    rfl

theorem solution_in {P : Tm → Prop} {s : MV K} (h : OkMV P s) (star : K → K) : ∀ x ∈ Dict.keys (solution star s), P x := by
  intro x hx
  rw [keys_solution] at hx
  rcases mem_alphabet hx with ⟨k, hk, rfl | rfl⟩ | hx
  · exact (h.row k hk).1
  · exact (h.row k hk).2
  · exact h.vec x hx

/-- the two phases of `kleene_linsolve` -/
theorem linSolve_phases {star : K → K} {f n : Nat} {rules : List (SRule K)} {sol : Dict Tm K} (e : linSolve star f n rules = some (sol, .done)) :
    ∃ b h s, agenda (booleanize rules) f n = some (b, .done) ∧ buildMV f b rules = some (h, s, .done) ∧ sol = solution star s := by
  unfold linSolve at e
  split at e
  · simp at e
  · rename_i b eb
    split at e
    · simp at e
    · rename_i h s es
      simp only [Option.some.injEq, Prod.mk.injEq, and_true] at e
      exact ⟨b, h, s, eb, es, e.symm⟩
    · rename_i hne _
      simp only [Option.some.injEq, Prod.mk.injEq] at e
      exact (hne e.2).elim
  · rename_i hne _
    simp only [Option.some.injEq, Prod.mk.injEq] at e
    exact (hne e.2).elim

/-- `star` satisfies its equation on all pivots met while solving the system of `rules` -/
def StarOn (star : K → K) (f n : Nat) (rules : List (SRule K)) : Prop :=
  ∀ b h s, agenda (booleanize rules) f n = some (b, .done) → buildMV f b rules = some (h, s, .done) →
    Kleene.PivotsR star (List.finRange _) (Kleene.packM s.M (Kleene.alphabet s.M s.V))

theorem pivots_total {star : K → K} (h : ∀ a, star a = 1 + a * star a) {N : Nat} (l : List (Fin N)) : ∀ A : Fin N → Fin N → K,
    Kleene.PivotsR star l A := by
  induction l with
  | nil => intro A; trivial
  | cons j l ih => intro A; exact ⟨h _, ih _⟩

theorem starOn_total {star : K → K} (h : ∀ a, star a = 1 + a * star a) (f n : Nat) (rules : List (SRule K)) : StarOn star f n rules :=
  fun _ _ _ _ _ => pivots_total h _ _

/-! ### Property C59 -/

theorem linSolve_ok {star : K → K} {f n : Nat} {rules : List (SRule K)} (hr : ∀ r ∈ rules, Safe r) (hp : ∀ r ∈ rules, Plain r)
    {sol : Dict Tm K} (e : linSolve star f n rules = some (sol, .done)) : OkD sol := by
  obtain ⟨b, h, s, eb, es, rfl⟩ := linSolve_phases e
  have hb := supp_of_agenda hr eb
  obtain ⟨hs, _⟩ := build_total hb hr hp es
  exact ⟨wf_solution star s, fun x hx => hb.ok.ground x (solution_in hs star x hx)⟩

/-- The values returned by `kleene_linsolve` solve the equations of the program: every item has the sum over all
ground instances of all rules as its value. -/
theorem C59_solves {star : K → K} {f n : Nat} {rules : List (SRule K)} (hr : ∀ r ∈ rules, Safe r) (hp : ∀ r ∈ rules, Plain r)
    (hs : StarOn star f n rules) {sol : Dict Tm K} (e : linSolve star f n rules = some (sol, .done)) (x : Tm) :
    value sol x = rhs rules (value sol) x := by
  obtain ⟨b, h, s, eb, es, rfl⟩ := linSolve_phases e
  have hb := supp_of_agenda hr eb
  obtain ⟨hmv, htot⟩ := build_total hb hr hp es
  rw [← htot (value (solution star s)) x (by
    intro y hy
    rw [value, (Dict.get_eq_none_iff _ _).2 fun h => hy (solution_in hmv star y h)]
    rfl)]
  have := Kleene.C22_linsolve star s.M hmv.wf s.V (hs b h s eb es) x
  have hv : value (solution star s) = Kleene.reported star s.M s.V := funext value_solution
  rw [hv, this]
  rfl

section Ordered
variable [PartialOrder K] [IsOrderedRing K]

/-- a row of the packed matrix is the row of the chart -/
theorem row_sum {ix : List Tm} (hnd : ix.Nodup) (a : Fin ix.length) (w : Tm → K) : ∀ (M : Dict (Tm × Tm) K), M.WF → (∀ ij ∈ M.keys, ij.2 ∈ ix) →
    ∑ c : Fin ix.length, (M.get (ix[a], ix[c])).getD 0 * w ix[c] =
      ((List.filter (fun e => decide (e.1.1 = ix[a])) M).map fun e => e.2 * w e.1.2).sum := by
  intro M
  induction M with
  | nil => intro _ _; simp
  | cons e M ih =>
    intro hwf hin
    obtain ⟨⟨i, j⟩, m⟩ := e
    have hwf' : Dict.WF M := by
      unfold Dict.WF at hwf ⊢; rw [Dict.keys_cons, List.nodup_cons] at hwf; exact hwf.2
    have hni : (i, j) ∉ Dict.keys M := by
      unfold Dict.WF at hwf; rw [Dict.keys_cons, List.nodup_cons] at hwf; exact hwf.1
    have hgn : Dict.get M (i, j) = none := (Dict.get_eq_none_iff _ _).2 hni
    have ih := ih hwf' (fun ij h => hin ij (by simp [h]))
    by_cases hi : i = ix[a]
    · subst hi
      simp only [List.filter_cons, decide_true, if_true, List.map_cons, List.sum_cons]
      rw [← ih]
      have hj : j ∈ ix := hin (ix[a], j) (by simp)
      obtain ⟨b0, hb0, rfl⟩ := List.mem_iff_getElem.1 hj
      rw [← Finset.add_sum_erase Finset.univ _ (Finset.mem_univ (⟨b0, hb0⟩ : Fin ix.length))]
      conv_rhs => rw [← Finset.add_sum_erase Finset.univ _ (Finset.mem_univ (⟨b0, hb0⟩ : Fin ix.length))]
      simp only [Fin.getElem_fin, Dict.get_cons, if_true, Option.getD_some, hgn, Option.getD_none, zero_mul, zero_add]
      have hgn' : Dict.get M (ix[(a : Nat)], ix[b0]) = none := hgn
      rw [hgn', Option.getD_none, zero_mul, zero_add]
      congr 1
      apply Finset.sum_congr rfl
      intro c hc
      have hne : ix[b0] ≠ ix[c.1] := by
        intro he
        have := (hnd.getElem_inj_iff).1 he
        simp only [Finset.mem_erase, Finset.mem_univ, and_true] at hc
        exact hc (Fin.ext this.symm)
      simp [hne]
    · simp only [List.filter_cons, hi, decide_false, Bool.false_eq_true, if_false]
      rw [← ih]
      apply Finset.sum_congr rfl
      intro c _
      have hi' : ¬ i = ix[(a : Nat)] := hi
      simp [Dict.get_cons, hi']

/-- below every chart that satisfies the inequalities of the items solved for -/
theorem below_chart (h0 : ∀ k : K, 0 ≤ k) {star : K → K} (hstar : ∀ a, star a = 1 + star a * a)
    (hind : ∀ a b x : K, b + a * x ≤ x → star a * b ≤ x) {f n : Nat} {rules : List (SRule K)} (hr : ∀ r ∈ rules, Safe r)
    (hp : ∀ r ∈ rules, Plain r) {sol : Dict Tm K} (e : linSolve star f n rules = some (sol, .done)) {w : Tm → K}
    (hw : ∀ y, y ∉ Dict.keys sol → w y = 0) (hle : ∀ x ∈ Dict.keys sol, rhs rules w x ≤ w x) (x : Tm) : value sol x ≤ w x := by
  obtain ⟨b, h, s, eb, es, rfl⟩ := linSolve_phases e
  have hb := supp_of_agenda hr eb
  obtain ⟨hmv, htot⟩ := build_total hb hr hp es
  have htot := fun x => htot w x fun y hy => hw y fun hk => hy (solution_in hmv star y hk)
  obtain ⟨hnd, _, hMM⟩ := Kleene.alphabet_spec s.M s.V
  haveI : MulLeftMono K := ⟨fun a b c h => mul_le_mul_of_nonneg_left h (h0 a)⟩
  rw [value_solution]
  unfold Kleene.reported
  split
  · rename_i hx
    set ix := Kleene.alphabet s.M s.V with hix
    have hvec : Kleene.linsolve star s.M s.V ⟨ix.idxOf x, hx⟩ =
        (Matrix.of (Kleene.kleene star (Kleene.packM s.M ix))).mulVec (Kleene.packV s.V ix) ⟨ix.idxOf x, hx⟩ := by
      simp only [Kleene.linsolve, Matrix.mulVec, dotProduct, Fin.sum_univ_def]; rfl
    rw [hvec]
    have := Kleene.C22_least star hstar hind (Kleene.packM s.M ix) (Kleene.packV s.V ix) (fun a => w ix[a]) (by
      intro a
      have h1 := hle ix[a] (by rw [keys_solution]; exact List.getElem_mem _)
      rw [← htot] at h1
      refine le_trans (le_of_eq ?_) h1
      unfold total
      congr 1
      rw [← row_sum hnd a w s.M hmv.wf fun ij h => (hMM ij h).2]
      rfl) ⟨ix.idxOf x, hx⟩
    simpa using this
  · exact h0 _

/-- In an ordered semiring where `star` gives least solutions, the values are below every valuation that is closed
under the rules: they are the least solution. -/
theorem C59_least (h0 : ∀ k : K, 0 ≤ k) {star : K → K} (hstar : ∀ a, star a = 1 + star a * a)
    (hind : ∀ a b x : K, b + a * x ≤ x → star a * b ≤ x) {f n : Nat} {rules : List (SRule K)} (hr : ∀ r ∈ rules, Safe r)
    (hp : ∀ r ∈ rules, Plain r) {sol : Dict Tm K} (e : linSolve star f n rules = some (sol, .done)) :
    Closed rules (value sol) ∧ ∀ v, Closed rules v → ∀ x, value sol x ≤ v x := by
  have hst : StarOn star f n rules := starOn_total (fun a => by rw [mul_comm]; exact hstar a) f n rules
  refine ⟨fixpoint_closed h0 hr (C59_solves hr hp hst e), fun v hv x => ?_⟩
  -- restrict `v` to the items of the solution
  let d : Dict Tm K := sol.map fun p => (p.1, v p.1)
  have hk : Dict.keys d = Dict.keys sol := by simp [d, Dict.keys, Function.comp_def]
  have hwf : Dict.WF d := by unfold Dict.WF; rw [hk]; exact (linSolve_ok hr hp e).wf
  have hin : ∀ x ∈ Dict.keys sol, value d x = v x := by
    intro x hx
    obtain ⟨p, hp, rfl⟩ := List.mem_map.1 hx
    have : (p.1, v p.1) ∈ d := List.mem_map.2 ⟨p, hp, rfl⟩
    rw [value, Dict.get_of_mem hwf this]; rfl
  have hout : ∀ x, x ∉ Dict.keys sol → value d x = 0 := by
    intro x hx
    rw [value, (Dict.get_eq_none_iff _ _).2 (by rw [hk]; exact hx)]; rfl
  have hle : ∀ x, value d x ≤ v x := by
    intro x
    by_cases hx : x ∈ Dict.keys sol
    · rw [hin x hx]
    · rw [hout x hx]
      have := hv x fun _ => ∅
      simpa using this
  refine le_trans (below_chart h0 hstar hind hr hp e hout (fun x hx => ?_) x) (hle x)
  rw [hin x hx]
  exact rhs_below h0 hr hv hle x

end Ordered

/-! ### Examples -/

instance decPivots {R : Type} [CommSemiring R] [DecidableEq R] {N : Nat} (star : R → R) : ∀ (l : List (Fin N)) (A : Fin N → Fin N → R),
    Decidable (Kleene.PivotsR star l A)
  | [], _ => .isTrue trivial
  | j :: l, A => @instDecidableAnd _ _ (inferInstanceAs (Decidable (star (A j j) = 1 + A j j * star (A j j)))) (decPivots star l _)

section Examples

private def ct (s : String) : Tm := .con (.str s)
private def X : Tm := .var 0
private def s (x : Tm) : Tm := .app [ct "s", x]
private def t (x : Tm) : Tm := .app [ct "t", x]

/-- `s(a) += 1.  s(b) += 3.  t(X) += 1/2 * s(X).  s(X) += t(X) * 1/2.` -/
private def prog : List (SRule ℚ) :=
  [⟨s (ct "a"), [.val 1]⟩, ⟨s (ct "b"), [.val 3]⟩, ⟨t X, [.val (1/2), .sub (s X)]⟩, ⟨s X, [.sub (t X), .val (1/2)]⟩]

private theorem safe2 {K : Type} {r : SRule K} {g : Tm} (hg : BLit.sub g ∈ r.body) (hv : ∀ n, InRule r n → n ∈ g.vars)
    (ha : ∀ u, BLit.sub u ∈ r.body → ∃ c as, u = .app (.con c :: as)) : Safe r :=
  ⟨fun n hn => .sub hg (hv n hn), ha⟩

private theorem prog_ok : ∀ r ∈ prog, Safe r ∧ Plain r := by
  intro r hr
  simp only [prog, List.mem_cons, List.not_mem_nil, or_false] at hr
  rcases hr with rfl | rfl | rfl | rfl
  · exact ⟨⟨fun n hn => by rcases hn with hn | ⟨z, hz, hn⟩ <;> simp_all [s, ct, litVars], by simp⟩, by simp [Plain]⟩
  · exact ⟨⟨fun n hn => by rcases hn with hn | ⟨z, hz, hn⟩ <;> simp_all [s, ct, litVars], by simp⟩, by simp [Plain]⟩
  · refine ⟨safe2 (g := s X) (by simp) ?_ ?_, by simp [Plain]⟩
    · rintro n (hn | ⟨z, hz, hn⟩)
      · simpa [s, t, X, ct] using hn
      · simp only [List.mem_cons, List.not_mem_nil, or_false] at hz
        rcases hz with rfl | rfl
        · simp [litVars] at hn
        · exact hn
    · intro u hu
      simp only [List.mem_cons, BLit.sub.injEq, List.not_mem_nil, or_false, reduceCtorEq, false_or] at hu
      subst hu; exact ⟨_, _, rfl⟩
  · refine ⟨safe2 (g := t X) (by simp) ?_ ?_, by simp [Plain]⟩
    · rintro n (hn | ⟨z, hz, hn⟩)
      · simpa [s, t, X, ct] using hn
      · simp only [List.mem_cons, List.not_mem_nil, or_false] at hz
        rcases hz with rfl | rfl
        · exact hn
        · simp [litVars] at hn
    · intro u hu
      simp only [List.mem_cons, BLit.sub.injEq, List.not_mem_nil, or_false, reduceCtorEq] at hu
      subst hu; exact ⟨_, _, rfl⟩

private def qstar (a : ℚ) : ℚ := 1 / (1 - a)

-- the cycles are summed: `s(a) = 1 + s(a)/4`
example : linSolve qstar 40 20 prog = some ([(t (ct "a"), 2/3), (s (ct "a"), 4/3), (t (ct "b"), 2), (s (ct "b"), 4)], .done) := by decide +kernel

private theorem prog_star : StarOn qstar 40 20 prog := by
  have key : ∀ p, (agenda (booleanize prog) 40 20).map (fun b => (b, buildMV 40 b.1 prog)) = some p →
      ∀ q, p.2 = some q → Kleene.PivotsR qstar (List.finRange _) (Kleene.packM q.2.1.M (Kleene.alphabet q.2.1.M q.2.1.V)) := by
    intro p hp q hq
    have : ((((agenda (booleanize prog) 40 20).map (fun b => (b, buildMV 40 b.1 prog))).bind Prod.snd).map fun q =>
        decide (Kleene.PivotsR qstar (List.finRange _) (Kleene.packM q.2.1.M (Kleene.alphabet q.2.1.M q.2.1.V)))) = some true := by decide +kernel
    rw [hp, Option.bind_some, hq, Option.map_some, Option.some.injEq, decide_eq_true_eq] at this
    exact this
  intro b h s eb es
  exact key _ (by rw [eb]; rfl) (h, s, .done) es

-- the hypotheses of `C59_solves` hold for it
example : ∃ sol, linSolve qstar 40 20 prog = some (sol, .done) ∧ ∀ x, value sol x = rhs prog (value sol) x := by
  have e : linSolve qstar 40 20 prog = some ([(t (ct "a"), 2/3), (s (ct "a"), 4/3), (t (ct "b"), 2), (s (ct "b"), 4)], .done) := by decide +kernel
  exact ⟨_, e, C59_solves (fun r h => (prog_ok r h).1) (fun r h => (prog_ok r h).2) prog_star e⟩

-- the hypotheses on `star` of `C59_least` hold for the nonnegative reals with infinity, with `1 / (1 - a)`
example : (∀ a : ENNReal, (1 - a)⁻¹ = 1 + (1 - a)⁻¹ * a) ∧ ∀ a b x : ENNReal, b + a * x ≤ x → (1 - a)⁻¹ * b ≤ x := by
  constructor
  · intro a
    rcases lt_or_ge a 1 with h | h
    · have h1 : (1 - a) + a = 1 := tsub_add_cancel_of_le h.le
      have h2 : (1 - a) ≠ 0 := by simpa [tsub_eq_zero_iff_le] using h
      have h3 : (1 - a) ≠ ⊤ := ne_top_of_le_ne_top ENNReal.one_ne_top tsub_le_self
      calc (1 - a)⁻¹ = (1 - a)⁻¹ * ((1 - a) + a) := by rw [h1, mul_one]
        _ = 1 + (1 - a)⁻¹ * a := by rw [mul_add, ENNReal.inv_mul_cancel h2 h3]
    · have : (1 - a) = 0 := tsub_eq_zero_of_le h
      have ha : a ≠ 0 := by rintro rfl; simp at h
      rw [this, ENNReal.inv_zero, ENNReal.top_mul ha, add_top]
  · intro a b x hx
    rcases eq_or_ne x ⊤ with rfl | hxt
    · exact le_top
    rcases lt_or_ge a 1 with h | h
    · have h2 : (1 - a) ≠ 0 := by simpa [tsub_eq_zero_iff_le] using h
      have h3 : (1 - a) ≠ ⊤ := ne_top_of_le_ne_top ENNReal.one_ne_top tsub_le_self
      have hax : a * x ≠ ⊤ := ENNReal.mul_ne_top (ne_top_of_lt h) hxt
      have hb : b ≤ (1 - a) * x := by
        rw [ENNReal.sub_mul (fun _ _ => hxt), one_mul]
        exact ENNReal.le_sub_of_add_le_right hax hx
      calc (1 - a)⁻¹ * b ≤ (1 - a)⁻¹ * ((1 - a) * x) := mul_le_mul_right hb _
        _ = x := by rw [← mul_assoc, ENNReal.inv_mul_cancel h2 h3, one_mul]
    · have hb : b = 0 := by
        by_contra hb
        have h1 : x ≤ a * x := by simpa using mul_le_mul_left h x
        have : b + x ≤ x := le_trans (add_le_add_right h1 b) hx
        have h3 : x < b + x := by rw [add_comm]; exact ENNReal.lt_add_right hxt hb
        exact absurd this (not_le.2 h3)
      simp [hb]

instance decLe (a b : TV) : Decidable (a ≤ b) := inferInstanceAs (Decidable (a = .t → b = .t))

instance : IsOrderedRing TV where
  add_le_add_left := by rintro (_ | _) (_ | _) h (_ | _) <;> first | exact le_refl _ | exact (by decide) | exact absurd h (by decide)
  zero_le_one := by decide
  mul_le_mul_of_nonneg_left := by
    rintro (_ | _) _ (_ | _) (_ | _) h <;> first | exact le_refl _ | exact (by decide) | exact absurd h (by decide)
  mul_le_mul_of_nonneg_right := by
    rintro (_ | _) _ (_ | _) (_ | _) h <;> first | exact le_refl _ | exact (by decide) | exact absurd h (by decide)

/-- `s(a) += true.  t(X) += s(X).  s(X) += t(X).` -/
private def progT : List (SRule TV) := [⟨s (ct "a"), [.val 1]⟩, ⟨t X, [.sub (s X)]⟩, ⟨s X, [.sub (t X)]⟩]

-- a complete run to which `C59_least` applies
example : ∃ sol, linSolve (fun _ => 1) 40 20 progT = some (sol, .done) ∧ Closed progT (value sol) ∧
    (∀ v, Closed progT v → ∀ x, value sol x ≤ v x) ∧ value sol (t (ct "a")) = 1 := by
  have e : linSolve (fun _ => 1) 40 20 progT = some ([(t (ct "a"), 1), (s (ct "a"), 1)], .done) := by decide +kernel
  have hs : ∀ r ∈ progT, Safe r ∧ Plain r := by
    intro r hr
    simp only [progT, List.mem_cons, List.not_mem_nil, or_false] at hr
    rcases hr with rfl | rfl | rfl
    · exact ⟨⟨fun n hn => by rcases hn with hn | ⟨z, hz, hn⟩ <;> simp_all [s, ct, litVars], by simp⟩, by simp [Plain]⟩
    · refine ⟨safe2 (g := s X) (by simp) ?_ ?_, by simp [Plain]⟩
      · rintro n (hn | ⟨z, hz, hn⟩)
        · simpa [s, t, X, ct] using hn
        · simp only [List.mem_singleton] at hz; subst hz; exact hn
      · intro u hu; simp only [List.mem_singleton, BLit.sub.injEq] at hu; subst hu; exact ⟨_, _, rfl⟩
    · refine ⟨safe2 (g := t X) (by simp) ?_ ?_, by simp [Plain]⟩
      · rintro n (hn | ⟨z, hz, hn⟩)
        · simpa [s, t, X, ct] using hn
        · simp only [List.mem_singleton] at hz; subst hz; exact hn
      · intro u hu; simp only [List.mem_singleton, BLit.sub.injEq] at hu; subst hu; exact ⟨_, _, rfl⟩
  obtain ⟨h1, h2⟩ := C59_least (fun k => by rcases tv_cases k with rfl | rfl <;> decide) (star := fun _ => 1) (fun _ => rfl) (by
    intro a b x h
    rcases tv_cases a with rfl | rfl <;> rcases tv_cases b with rfl | rfl <;> rcases tv_cases x with rfl | rfl <;>
      first | decide | exact absurd h (by decide)) (fun r h => (hs r h).1) (fun r h => (hs r h).2) e
  exact ⟨_, e, h1, h2, by decide +kernel⟩

/-- two subgoals in a rule that fires: `p += 1.  q += p * p.` -/
private def quad : List (SRule ℚ) := [⟨.app [ct "p"], [.val 1]⟩, ⟨.app [ct "q"], [.sub (.app [ct "p"]), .sub (.app [ct "p"])]⟩]
example : (linSolve qstar 40 20 quad).map Prod.snd = some assertion := by decide +kernel

/-- a rule with two subgoals that never fires does no harm: `p += 1.  q += p * r.` -/
private def quad' : List (SRule ℚ) := [⟨.app [ct "p"], [.val 1]⟩, ⟨.app [ct "q"], [.sub (.app [ct "p"]), .sub (.app [ct "r"])]⟩]
example : linSolve qstar 40 20 quad' = some ([(.app [ct "p"], 1)], .done) := by decide +kernel

/-- A builtin counts as an unknown: the constraint of `p += 2 * (1 < 3).` becomes an item without rules, and `p` gets
the value 0 instead of 2. -/
private def guard : List (SRule ℚ) := [⟨.app [ct "p"], [.val 2, .cmp (fun x y => x = ct "1" && y = ct "3") (ct "1") (ct "3")]⟩]

theorem C59_builtin_unknown : (linSolve qstar 40 20 guard).map (fun p => (value p.1 (.app [ct "p"]), p.2)) = some (0, .done) ∧
    rhs guard (fun _ => 0) (.app [ct "p"]) = 2 := by
  refine ⟨by decide +kernel, ?_⟩
  have e : stepF (K := ℚ) ⟨guard, fun c => c == 0, 0, fun a b => a == b, fun a b => a == b⟩ 40 [] = some ([(.app [ct "p"], 2)], .done) := by
    decide +kernel
  have hs : ∀ r ∈ guard, Safe r := by
    intro r hr
    simp only [guard, List.mem_singleton] at hr
    subst hr
    exact ⟨fun n hn => by rcases hn with hn | ⟨z, hz, hn⟩ <;> simp_all [ct, litVars] <;> rcases hz with rfl | rfl <;> simp [litVars] at hn, by simp⟩
  have := (step_value (by simp) hs ⟨Dict.WF.nil, by simp⟩ e).2 (.app [ct "p"])
  exact this.symm

end Examples

end LinSolve
end Verif
