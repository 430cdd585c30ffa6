/-
Property C79: running the builtins of a program keeps its values and leaves only builtins that cannot be run.
-/
import Verif.RunB
import Verif.UnfoldThm
import Verif.FoldThm
import Verif.HookThm
import Verif.SemUpdate
import Verif.SemFold

set_option linter.unusedSectionVars false
set_option linter.unusedSimpArgs false

namespace Verif
open Tm Heap Sem
open Solver (noHeap forEach good_noHeap respects_noHeap)
open Unfold (Ops Prog US lookup derefR isInput unsupported freshR subLit subRule UserHead bval unmodelled offers Below)

namespace RunB
variable {W : Type}

/-! ### Specification -/

/-- the atom `x = y` -/
def eqTm (x y : Tm) : Tm := .app [.con (.str "="), x, y]

/-- an equation in a body -/
def IsEq (l : Lit W) : Prop := ∃ x y, l = .sub (eqTm x y)

/-- a comparison -/
def IsCmp (ops : Ops) (t : Tm) : Prop := ∃ c x y, t = .app [.con c, x, y] ∧ ops c ≠ none

/-- all equations of the body hold under `τ` -/
def Eqs (τ : Nat → Tm) (b : List (Lit W)) : Prop := ∀ x y, Lit.sub (eqTm x y) ∈ b → x.sub τ = y.sub τ

/-- the valuation gives every ground builtin its value -/
def Bok [CommSemiring W] (ops : Ops) (v : GTm → W) : Prop := ∀ y b, bval ops y.1 = some b → v y = b

/-- subgoals as written by the parser, without the builtins that are not modelled -/
def PlainTm (t : Tm) : Prop :=
  ∃ c as, t = .app (.con c :: as) ∧ unmodelled c = false ∧ c ≠ .str "$free" ∧ c ≠ .str "$bound"

def Plain (b : List (Lit W)) : Prop := ∀ t, Lit.sub t ∈ b → PlainTm t

structure OpsOk (ops : Ops) : Prop where
  eq : ops (.str "=") = none
  mod : ∀ c, ops c ≠ none → unmodelled c = false

/-- nothing is left to run: there are no equations and every comparison has a variable -/
def Done (ops : Ops) (r : WRule W) : Prop :=
  (∀ l ∈ r.body, ¬ IsEq l) ∧ ∀ t, Lit.sub t ∈ r.body → IsCmp ops t → vars t ≠ ∅

/-! ### Enumerating the solutions of a body -/

section
variable [CSemi W]

/-- what the enumeration arrives at, from the bindings `h`: further bindings `bs` and the new body `ys` -/
structure Ok (ops : Ops) (h : Heap) (b : List (Lit W)) (bs : List (Nat × Tm)) (ys : List (Lit W)) : Prop where
  good : Good (bindAll h bs)
  resp : ∀ τ, Respects (bindAll h bs) τ ↔ Respects h τ ∧ Eqs τ b
  undo : unbindAll bs (bindAll h bs) = h
  var : ∀ (t : Tm) z, z ∈ vars (t.sub (res (bindAll h bs))) → z ∈ vars (t.sub (res h)) ∨ ∃ l ∈ b, z ∈ litVars (subLit (res h) l)
  val : ∀ v, Bok ops v → ∀ θ : Nat → GTm, Respects (bindAll h bs) (fun n => (θ n).1) → bv v θ ys = bv v θ b
  prod : (WRule.vals ys).prod = (WRule.vals b).prod
  src : ∀ l ∈ ys, l = .val 1 ∨ l ∈ b ∧ ¬ IsEq l
  kept : ∀ l ∈ b, ¬ IsEq l → l ∈ ys ∨ litVars (subLit (res (bindAll h bs)) l) = ∅
  cmp : ∀ t : Tm, Lit.sub t ∈ ys → IsCmp ops t → vars (t.sub (res h)) ≠ ∅
  noeq : (∀ l ∈ b, ¬ IsEq l) → bs = []
  same : (∀ l ∈ b, ¬ IsEq l) → (∀ t : Tm, Lit.sub t ∈ b → IsCmp ops t → vars (t.sub (res h)) ≠ ∅) → ys = b

inductive BSpec (ops : Ops) (h : Heap) (b : List (Lit W)) : Option (List (Nat × Tm) × List (Lit W)) → Prop
  | fail : (∀ v, Bok ops v → ∀ θ : Nat → GTm, Respects h (fun n => (θ n).1) → bv v θ b = 0) → ((∀ l ∈ b, ¬ IsEq l) →
      ∃ t : Tm, Lit.sub t ∈ b ∧ IsCmp ops t ∧ vars (t.sub (res h)) = ∅) → BSpec ops h b none
  | ok (bs ys) : Ok ops h b bs ys → BSpec ops h b (some (bs, ys))

/-- run the continuation on the new body under the new bindings -/
def cont (r : Option (List (Nat × Tm) × List (Lit W))) (k : List (Lit W) → Body (US W)) : Body (US W) :=
  match r with
  | none => run none (k [])
  | some (bs, ys) => run (some bs) (k ys)

theorem prod_val (c : W) (b : List (Lit W)) : (WRule.vals (.val c :: b)).prod = c * (WRule.vals b).prod := by simp [WRule.vals]

theorem prod_sub (t : Tm) (b : List (Lit W)) : (WRule.vals (.sub t :: b)).prod = (WRule.vals b).prod := by simp [WRule.vals]

theorem eqs_cons {τ : Nat → Tm} {l : Lit W} {b : List (Lit W)} :
    Eqs τ (l :: b) ↔ (∀ x y, l = .sub (eqTm x y) → x.sub τ = y.sub τ) ∧ Eqs τ b := by
  constructor
  · intro h; exact ⟨fun x y e => h x y (by simp [e]), fun x y hm => h x y (by simp [hm])⟩
  · rintro ⟨h1, h2⟩ x y hm
    rcases List.mem_cons.1 hm with e | hm
    · exact h1 x y e.symm
    · exact h2 x y hm

theorem eqs_skip {τ : Nat → Tm} {l : Lit W} {b : List (Lit W)} (hl : ¬ IsEq l) : Eqs τ (l :: b) ↔ Eqs τ b := by
  rw [eqs_cons]
  exact ⟨fun h => h.2, fun h => ⟨fun x y e => (hl ⟨_, _, e⟩).elim, h⟩⟩

theorem eqs_eq {τ : Nat → Tm} {x y : Tm} {b : List (Lit W)} : Eqs τ (.sub (eqTm x y) :: b) ↔ x.sub τ = y.sub τ ∧ Eqs τ b := by
  rw [eqs_cons]
  refine and_congr_left fun _ => ⟨fun h => h x y rfl, fun h x' y' e => ?_⟩
  simp only [eqTm, Lit.sub.injEq, Tm.app.injEq, List.cons.injEq, true_and, and_true] at e
  rw [← e.1, ← e.2]; exact h

/-- ground under some bindings, so ground under more -/
theorem ground_mono {h : Heap} (hg : Good h) {τ : Nat → Tm} (hτ : Respects h τ) {t : Tm} (ht : vars (t.sub (res h)) = ∅) :
    vars (t.sub τ) = ∅ := by
  rw [← hg.sub_res hτ t, Unfold.sub_closed ht]
  exact ht

theorem litGround_mono {h : Heap} (hg : Good h) {τ : Nat → Tm} (hτ : Respects h τ) {l : Lit W} (ht : litVars (subLit (res h) l) = ∅) :
    litVars (subLit τ l) = ∅ := by
  cases l with
  | val c => rfl
  | sub t => exact ground_mono hg hτ ht

/-- an element that is passed on -/
theorem bspec_skip {ops : Ops} {h : Heap} {l : Lit W} {b : List (Lit W)} {r} (hl : ¬ IsEq l)
    (hc : ∀ t, l = .sub t → IsCmp ops t → vars (t.sub (res h)) ≠ ∅) (hs : BSpec ops h b r) :
    BSpec ops h (l :: b) (r.map fun a => (a.1, l :: a.2)) := by
  cases hs with
  | fail h1 h2 =>
    refine .fail (fun v hv θ hθ => by rw [bv_cons, h1 v hv θ hθ, mul_zero]) fun hn => ?_
    obtain ⟨t, a, b', c⟩ := h2 fun l hl => hn l (by simp [hl])
    exact ⟨t, by simp [a], b', c⟩
  | ok bs ys o =>
    refine .ok bs (l :: ys) ⟨o.good, fun τ => by rw [o.resp, eqs_skip hl], o.undo, ?_, ?_, ?_, ?_, ?_, ?_, ?_, ?_⟩
    · intro t z hz
      rcases o.var t z hz with h | ⟨l', h1, h2⟩
      · exact .inl h
      · exact .inr ⟨l', by simp [h1], h2⟩
    · intro v hv θ hθ
      rw [bv_cons, bv_cons, o.val v hv θ hθ]
    · cases l with
      | val c => rw [prod_val, prod_val, o.prod]
      | sub t => rw [prod_sub, prod_sub, o.prod]
    · intro l' hl'
      rcases List.mem_cons.1 hl' with rfl | h
      · exact .inr ⟨by simp, hl⟩
      · rcases o.src l' h with h | ⟨h1, h2⟩
        · exact .inl h
        · exact .inr ⟨by simp [h1], h2⟩
    · intro l' hl' hn
      rcases List.mem_cons.1 hl' with rfl | h
      · exact .inl (by simp)
      · rcases o.kept l' h hn with h | h
        · exact .inl (by simp [h])
        · exact .inr h
    · intro t ht htc
      rcases List.mem_cons.1 ht with h | h
      · exact hc t h.symm htc
      · exact o.cmp t h htc
    · exact fun hn => o.noeq fun l hl => hn l (by simp [hl])
    · intro hn hd
      rw [o.same (fun l hl => hn l (by simp [hl])) fun t ht => hd t (by simp [ht])]

theorem cont_skip (l : Lit W) (r : Option (List (Nat × Tm) × List (Lit W))) (k : List (Lit W) → Body (US W)) :
    cont (r.map fun a => (a.1, l :: a.2)) k = cont r fun ys => k (l :: ys) := by
  cases r with
  | none => rfl
  | some a => rfl

theorem bval_eq {ops : Ops} (ho : OpsOk ops) (x y : Tm) : bval (W := W) ops (eqTm x y) = some (if x = y then 1 else 0) := by
  simp [bval, eqTm, ho.eq]

/-- an equation that was solved -/
theorem bspec_eq {ops : Ops} (ho : OpsOk ops) {h : Heap} (hg : Good h) {x y : Tm} {b : List (Lit W)} {bs : List (Nat × Tm)} {r}
    (hs : Spec h x y (some bs)) (hb : BSpec ops (bindAll h bs) b r) :
    BSpec ops h (.sub (eqTm x y) :: b) (r.map fun a => (bs ++ a.1, .val 1 :: a.2)) := by
  cases hs with
  | ok _ g1 q1 n1 d1 v1 =>
  have hu1 : unbindAll bs (bindAll h bs) = h := unbindAll_bindAll n1 fun p hp => by
    have := d1 p hp
    simp only [Finset.mem_union] at this
    rcases this with hz | hz
    · exact hg.vars_res hz
    · exact hg.vars_res hz
  have hR : ∀ τ, Respects (bindAll h bs) τ → Respects h τ := fun τ hτ => ((q1 τ).1 hτ).1
  have isEq : IsEq (.sub (eqTm x y) : Lit W) := ⟨x, y, rfl⟩
  have hone : ∀ v : GTm → W, Bok ops v → ∀ θ : Nat → GTm, x.sub (fun n => (θ n).1) = y.sub (fun n => (θ n).1) →
      lv v θ (.sub (eqTm x y)) = 1 := by
    intro v hv θ he
    refine hv _ _ ?_
    have : (gsub θ (eqTm x y)).1 = eqTm (x.sub fun n => (θ n).1) (y.sub fun n => (θ n).1) := by
      simp [gsub, eqTm, sub_app, sub_con]
    rw [this, bval_eq ho, if_pos he]
  have hzero : ∀ v : GTm → W, Bok ops v → ∀ θ : Nat → GTm, x.sub (fun n => (θ n).1) ≠ y.sub (fun n => (θ n).1) →
      lv v θ (.sub (eqTm x y)) = 0 := by
    intro v hv θ he
    refine hv _ _ ?_
    have : (gsub θ (eqTm x y)).1 = eqTm (x.sub fun n => (θ n).1) (y.sub fun n => (θ n).1) := by
      simp [gsub, eqTm, sub_app, sub_con]
    rw [this, bval_eq ho, if_neg he]
  cases hb with
  | fail h1 h2 =>
    refine .fail (fun v hv θ hθ => ?_) fun hn => (hn _ (by simp) isEq).elim
    rw [bv_cons]
    by_cases he : x.sub (fun n => (θ n).1) = y.sub (fun n => (θ n).1)
    · rw [h1 v hv θ ((q1 _).2 ⟨hθ, he⟩), mul_zero]
    · rw [hzero v hv θ he, zero_mul]
  | ok cs ys o =>
    have hres : ∀ τ, Respects (bindAll (bindAll h bs) cs) τ → Respects (bindAll h bs) τ := fun τ hτ => ((o.resp τ).1 hτ).1
    refine .ok (bs ++ cs) (.val 1 :: ys) ⟨by rw [bindAll_append]; exact o.good, fun τ => ?_, ?_, ?_, ?_, ?_, ?_, ?_, ?_, ?_, ?_⟩
    · rw [bindAll_append, o.resp, q1, eqs_eq, and_assoc]
    · rw [bindAll_append, unbindAll_append, o.undo, hu1]
    · intro t z hz
      rw [bindAll_append] at hz
      have key : ∀ t' : Tm, z ∈ vars (t'.sub (res (bindAll h bs))) → z ∈ vars (t'.sub (res h)) ∨ z ∈ litVars (subLit (res h) (.sub (eqTm x y) : Lit W)) := by
        intro t' hz'
        rcases (v1 t' z hz').1 with h | h | h
        · exact .inl h
        · right; simp [subLit, litVars, eqTm, sub_app, h]
        · right; simp [subLit, litVars, eqTm, sub_app, h]
      rcases o.var t z hz with h | ⟨l, h1, h2⟩
      · rcases key t h with h | h
        · exact .inl h
        · exact .inr ⟨_, by simp, h⟩
      · cases l with
        | val c => simp [subLit, litVars] at h2
        | sub t' =>
          rcases key t' h2 with h | h
          · exact .inr ⟨.sub t', by simp [h1], h⟩
          · exact .inr ⟨_, by simp, h⟩
    · intro v hv θ hθ
      rw [bindAll_append] at hθ
      have he := ((q1 _).1 (hres _ hθ)).2
      rw [bv_cons, bv_cons, o.val v hv θ hθ, hone v hv θ he]
      rfl
    · rw [prod_val, prod_sub, one_mul, o.prod]
    · intro l hl
      rcases List.mem_cons.1 hl with rfl | hl
      · exact .inl rfl
      · rcases o.src l hl with h | ⟨h1, h2⟩
        · exact .inl h
        · exact .inr ⟨by simp [h1], h2⟩
    · intro l hl hn
      rw [bindAll_append]
      rcases List.mem_cons.1 hl with rfl | hl
      · exact (hn isEq).elim
      · rcases o.kept l hl hn with h | h
        · exact .inl (by simp [h])
        · exact .inr h
    · intro t ht hc h0
      simp only [List.mem_cons, reduceCtorEq, false_or] at ht
      exact o.cmp t ht hc (ground_mono hg (hR _ g1.respects_res) h0)
    · exact fun hn => (hn _ (by simp) isEq).elim
    · exact fun hn => (hn _ (by simp) isEq).elim

/-- a comparison that was decided -/
theorem bspec_true {ops : Ops} {h : Heap} (hg : Good h) {c : Const} {o : Tm → Tm → Bool} (hc : ops c = some o) {x y : Tm} {b : List (Lit W)} {r}
    (he : ops (.str "=") = none)
    (hx : vars (x.sub (res h)) = ∅) (hy : vars (y.sub (res h)) = ∅) (ht : o (x.sub (res h)) (y.sub (res h)) = true) (hb : BSpec ops h b r) :
    BSpec ops h (.sub (.app [.con c, x, y]) :: b) (r.map fun a => (a.1, .val 1 :: a.2)) := by
  have hval : ∀ v : GTm → W, Bok ops v → ∀ θ : Nat → GTm, Respects h (fun n => (θ n).1) → lv v θ (.sub (.app [.con c, x, y])) = 1 := by
    intro v hv θ hθ
    refine hv _ _ ?_
    have e1 := hg.sub_res hθ x
    have e2 := hg.sub_res hθ y
    rw [Unfold.sub_closed hx] at e1
    rw [Unfold.sub_closed hy] at e2
    simp only [gsub, sub_app, List.map_cons, List.map_nil, sub_con, bval, hc, ← e1, ← e2, ht, if_true]
  have hne : ¬ IsEq (.sub (.app [.con c, x, y]) : Lit W) := by
    rintro ⟨x', y', e⟩
    simp only [eqTm, Lit.sub.injEq, Tm.app.injEq, List.cons.injEq, Tm.con.injEq] at e
    rw [e.1, he] at hc; cases hc
  have hcm : IsCmp ops (.app [.con c, x, y]) := ⟨c, x, y, rfl, by simp [hc]⟩
  have hgr : vars ((Tm.app [.con c, x, y]).sub (res h)) = ∅ := by
    simp [sub_app, hx, hy]
  cases hb with
  | fail h1 h2 =>
    exact .fail (fun v hv θ hθ => by rw [bv_cons, h1 v hv θ hθ, mul_zero]) fun _ => ⟨_, by simp, hcm, hgr⟩
  | ok bs ys o' =>
    have hres : ∀ τ, Respects (bindAll h bs) τ → Respects h τ := fun τ hτ => ((o'.resp τ).1 hτ).1
    refine .ok bs (.val 1 :: ys) ⟨o'.good, fun τ => by rw [o'.resp, eqs_skip hne], o'.undo, ?_, ?_, ?_, ?_, ?_, ?_, ?_, ?_⟩
    · intro t z hz
      rcases o'.var t z hz with h | ⟨l', h1, h2⟩
      · exact .inl h
      · exact .inr ⟨l', by simp [h1], h2⟩
    · intro v hv θ hθ
      rw [bv_cons, bv_cons, o'.val v hv θ hθ, hval v hv θ (hres _ hθ)]
      rfl
    · rw [prod_val, prod_sub, one_mul, o'.prod]
    · intro l' hl'
      rcases List.mem_cons.1 hl' with rfl | h
      · exact .inl rfl
      · rcases o'.src l' h with h | ⟨h1, h2⟩
        · exact .inl h
        · exact .inr ⟨by simp [h1], h2⟩
    · intro l' hl' hn
      rcases List.mem_cons.1 hl' with rfl | h
      · exact .inr (ground_mono hg (hres _ o'.good.respects_res) hgr)
      · rcases o'.kept l' h hn with h | h
        · exact .inl (by simp [h])
        · exact .inr h
    · intro t ht htc
      simp only [List.mem_cons, reduceCtorEq, false_or] at ht
      exact o'.cmp t ht htc
    · exact fun hn => o'.noeq fun l hl => hn l (by simp [hl])
    · intro _ hd
      exact (hd _ (by simp) hcm hgr).elim

theorem input_evt {h : Heap} (hg : Good h) {ops : Ops} {c : Const} (as : List Tm) (hc : ops c ≠ none ∨ c = .str "=") :
    ∀ {ts : List Tm}, (∀ t ∈ ts, UserHead ops t) → Evt (fun f => isInput f (.app (.con c :: as)) h ts = some false)
  | [], _ => .of_all fun f => rfl
  | t :: ts, ht => by
    obtain ⟨c', as', e', h1, h2⟩ := ht t (by simp)
    obtain ⟨r, hs, he⟩ := unify_result hg t (.app (.con c :: as))
    cases r with
    | some bs =>
      cases hs with
      | ok _ hg' hr hn hd hv =>
      have e := ((hr _).1 hg'.respects_res).2
      rw [e'] at e
      simp only [sub_app, List.map_cons, sub_con, Tm.app.injEq, List.cons.injEq, Tm.con.injEq] at e
      rw [e.1] at h1 h2
      rcases hc with hc | hc
      · exact (hc h1).elim
      · exact (h2 hc).elim
    | none =>
      refine (he.and (input_evt hg as hc (ts := ts) fun t h => ht t (List.mem_cons_of_mem _ h))).mono fun f e => ?_
      simp only [isInput, unifiesF, e.1, run, Option.map_some, e.2]

theorem offers_cmp {ops : Ops} {c : Const} (hc : ops c ≠ none) {rs : List (WRule W)} (hr : ∀ r ∈ rs, UserHead ops r.head) : offers rs c = [] := by
  unfold offers
  rw [List.filter_eq_nil_iff]
  rintro ⟨r, i⟩ hm he
  obtain ⟨c', as, e, h1, h2⟩ := hr r (List.fst_mem_of_mem_zipIdx hm)
  simp only [e, hfn, beq_iff_eq, Option.some.injEq] at he
  exact hc (he ▸ h1)

theorem run_nil {S : Type} (b : Body S) : run (some []) b = b := by
  funext h s
  simp only [run, bindAll, unbindAll]
  cases b h s with
  | none => rfl
  | some q => rfl

/-- the rule's body as far as it is a builtin or not -/
theorem runB_run {ops : Ops} (ho : OpsOk ops) {p : Prog W} (hp : ∀ r ∈ p.rules, UserHead ops r.head) (hi : ∀ t ∈ p.inputs, UserHead ops t) :
    ∀ (b : List (Lit W)) {h : Heap}, Good h → Plain b →
      ∃ r, BSpec ops h b r ∧ Evt (fun f => ∀ k s, runB f ops p b k h s = cont r k h s) := by
  intro b
  induction b with
  | nil =>
    intro h hg _
    refine ⟨some ([], []), .ok _ _ ⟨hg, fun τ => ⟨fun h => ⟨h, fun x y hm => by simp at hm⟩, fun h => h.1⟩, rfl, fun t z hz => .inl hz,
      fun _ _ _ _ => rfl, rfl, by simp, by simp, by simp, fun _ => rfl, fun _ _ => rfl⟩, .of_all fun f k s => ?_⟩
    simp only [runB, cont, run_nil]
  | cons l b ih =>
    intro h hg hP
    have hP' : Plain b := fun t ht => hP t (by simp [ht])
    cases l with
    | val c =>
      obtain ⟨r, s1, e1⟩ := ih hg hP'
      refine ⟨_, bspec_skip (l := .val c) (by rintro ⟨x, y, e⟩; cases e) (by intro t e; cases e) s1, e1.mono fun f e k s => ?_⟩
      rw [cont_skip]
      simp only [runB, e]
    | sub q =>
      obtain ⟨c, as, rfl, hm, hf, hbd⟩ := hP q (by simp)
      by_cases hB : isB ops (.app (.con c :: as)) = true
      · -- a builtin
        have hl2 : as.length = 2 ∧ (c = .str "=" ∨ ops c ≠ none) := by
          simp only [unmodelled, Bool.or_eq_false_iff, beq_eq_false_iff_ne] at hm
          simp only [isB, Bool.or_eq_true, Bool.and_eq_true, beq_iff_eq, hf, hbd, hm.1.1, hm.1.2, or_false, and_false, false_or,
            Option.isSome_iff_ne_none] at hB
          exact hB
        obtain ⟨hl2, hc⟩ := hl2
        obtain ⟨x, y, rfl⟩ := List.length_eq_two.1 hl2
        have hin := input_evt hg [x, y] hc.symm (ts := p.inputs) hi
        by_cases hce : c = .str "="
        · subst hce
          obtain ⟨r1, s1, e1⟩ := unify_result hg x y
          cases r1 with
          | none =>
            refine ⟨none, .fail ?_ fun hn => (hn _ List.mem_cons_self ⟨x, y, rfl⟩).elim, (hin.and e1).mono fun f e k s => ?_⟩
            · intro v hv θ hθ
              cases s1 with
              | fail hfl =>
              rw [bv_cons, show lv v θ (.sub (.app [.con (.str "="), x, y])) = 0 from hv _ _ ?_, zero_mul]
              have : (gsub θ (eqTm x y)).1 = eqTm (x.sub fun n => (θ n).1) (y.sub fun n => (θ n).1) := by
                simp [gsub, eqTm, sub_app, sub_con]
              rw [show (Tm.app [.con (.str "="), x, y]) = eqTm x y from rfl, this, bval_eq ho, if_neg (hfl _ hθ)]
            · simp only [runB, if_pos hB, e.1, lookup, hm, Bool.false_eq_true, if_false, ho.eq, e.2, cont, run]
          | some bs =>
            have hgs := s1
            cases hgs with
            | ok _ g1 q1 n1 d1 v1 =>
            obtain ⟨r, s2, e2⟩ := ih g1 hP'
            refine ⟨_, bspec_eq ho hg s1 s2, (hin.and (e1.and e2)).mono fun f e k s => ?_⟩
            obtain ⟨ei, eu, er⟩ := e
            simp only [runB, if_pos hB, ei, lookup, hm, Bool.false_eq_true, if_false, ho.eq, eu, List.cons_append, List.nil_append]
            have hu1 : unbindAll bs (bindAll h bs) = h := unbindAll_bindAll n1 fun p hp => by
              have := d1 p hp
              simp only [Finset.mem_union] at this
              rcases this with hz | hz
              · exact hg.vars_res hz
              · exact hg.vars_res hz
            simp only [run, er]
            cases r with
            | none => simp only [cont, run, Option.map_none, hu1]
            | some a =>
              simp only [cont, run, Option.map_some, bindAll_append]
              cases k (.val 1 :: a.2) (bindAll (bindAll h bs) a.1) s with
              | none => rfl
              | some w => simp only [unbindAll_append]
        · have hc' : ops c ≠ none := hc.resolve_left hce
          obtain ⟨o, hco⟩ := Option.ne_none_iff_exists'.1 hc'
          obtain ⟨r, s2, e2⟩ := ih hg hP'
          obtain ⟨fx, hfx⟩ := hg.evt_deref x
          obtain ⟨fy, hfy⟩ := hg.evt_deref y
          have gx := groundF_evt fx x _ (hfx fx le_rfl)
          have gy := groundF_evt fy y _ (hfy fy le_rfl)
          have hne : ¬ IsEq (.sub (.app [.con c, x, y]) : Lit W) := by
            rintro ⟨x', y', e⟩
            simp only [eqTm, Lit.sub.injEq, Tm.app.injEq, List.cons.injEq, Tm.con.injEq] at e
            exact hce e.1
          have hall := hin.and (e2.and (gx.and (gy.and ((hg.evt_deref x).and (hg.evt_deref y)))))
          by_cases hgr : vars (x.sub (res h)) = ∅ ∧ vars (y.sub (res h)) = ∅
          · by_cases ht : o (x.sub (res h)) (y.sub (res h)) = true
            · refine ⟨_, bspec_true hg hco ho.eq hgr.1 hgr.2 ht s2, hall.mono fun f e k s => ?_⟩
              obtain ⟨ei, er, e3, e4, e5, e6⟩ := e
              rw [cont_skip]
              simp only [runB, if_pos hB, ei, lookup, hm, Bool.false_eq_true, if_false, hco, e3, e4, e5, e6, hgr.1, hgr.2, decide_true, ht, if_true, er,
                List.cons_append, List.nil_append]
            · refine ⟨none, .fail ?_ fun _ => ⟨_, List.mem_cons_self, ⟨c, x, y, rfl, hc'⟩, by simp [sub_app, hgr.1, hgr.2]⟩, hall.mono fun f e k s => ?_⟩
              · intro v hv θ hθ
                rw [bv_cons, show lv v θ (.sub (.app [.con c, x, y])) = 0 from hv _ _ ?_, zero_mul]
                have e1 := hg.sub_res hθ x
                have e2 := hg.sub_res hθ y
                rw [Unfold.sub_closed hgr.1] at e1
                rw [Unfold.sub_closed hgr.2] at e2
                simp only [gsub, sub_app, List.map_cons, List.map_nil, sub_con, bval, hco, ← e1, ← e2, ht, if_false, Bool.false_eq_true]
              · obtain ⟨ei, er, e3, e4, e5, e6⟩ := e
                simp only [runB, if_pos hB, ei, lookup, hm, Bool.false_eq_true, if_false, hco, e3, e4, e5, e6, hgr.1, hgr.2, decide_true, ht, cont, run]
          · refine ⟨_, bspec_skip (l := .sub (.app [.con c, x, y])) hne ?_ s2, hall.mono fun f e k s => ?_⟩
            · rintro t ht - h0
              cases ht
              simp only [sub_app, List.map_cons, List.map_nil, sub_con] at h0
              apply hgr
              constructor
              · refine Finset.eq_empty_of_forall_notMem fun n hn => ?_
                have : n ∈ vars (.app [.con c, x.sub (res h), y.sub (res h)]) := by simp [hn]
                rw [h0] at this; simp at this
              · refine Finset.eq_empty_of_forall_notMem fun n hn => ?_
                have : n ∈ vars (.app [.con c, x.sub (res h), y.sub (res h)]) := by simp [hn]
                rw [h0] at this; simp at this
            · obtain ⟨ei, er, e3, e4, e5, e6⟩ := e
              rw [cont_skip]
              simp only [runB, if_pos hB, ei, lookup, hm, Bool.false_eq_true, if_false, hco, e3, e4, e5, e6, er, List.cons_append, List.nil_append,
                offers_cmp hc' hp, forEach]
              have : ∀ A : Option (Heap × US W × Sig), (match A with | none => none | some (h, s, .done) => some (h, s, .done) | some r => some r) = A := by
                intro A
                match A with
                | none => rfl
                | some (h, s, .done) => rfl
                | some (h, s, .brk) => rfl
                | some (h, s, .exc _) => rfl
              by_cases a1 : vars (x.sub (res h)) = ∅
              · have a2 : ¬ vars (y.sub (res h)) = ∅ := fun a2 => hgr ⟨a1, a2⟩
                simp only [a1, a2, decide_true, decide_false]
                exact this _
              · simp only [a1, decide_false]
                exact this _
      · -- an ordinary subgoal
        obtain ⟨r, s1, e1⟩ := ih hg hP'
        refine ⟨_, bspec_skip (l := .sub (.app (.con c :: as))) ?_ ?_ s1, e1.mono fun f e k s => ?_⟩
        · rintro ⟨x, y, e⟩
          simp only [eqTm, Lit.sub.injEq, Tm.app.injEq, List.cons.injEq, Tm.con.injEq] at e
          exact hB (by simp [isB, e.1, e.2])
        · rintro t ht ⟨c', x, y, e, hc⟩
          cases ht
          simp only [Tm.app.injEq, List.cons.injEq, Tm.con.injEq] at e
          exact absurd (by simp [isB, e.1, e.2, Option.isSome_iff_ne_none, hc]) hB
        · rw [cont_skip]
          simp only [runB, if_neg hB, e]

/-! ### What a rule contributes -/

open Classical in
/-- summing over the assignments that respect the bindings -/
theorem isum_heap {V : Finset Nat} {h : Heap} (hg : Good h) (hcl : ∀ n ∈ V, ∀ m ∈ vars (res h n), m ∈ V)
    {P : (Nat → GTm) → Prop} (hP : ∀ θ, P θ ↔ Respects h fun n => (θ n).1) (hPc : ∀ θ φ, (∀ n ∈ V, θ n = φ n) → P θ → P φ)
    (F : (Nat → GTm) → W) (hF : ∀ θ φ, (∀ n ∈ V, θ n = φ n) → F θ = F φ) :
    isum (fun a : Asg V => if P (ext a) then F (ext a) else 0) =
      isum fun a : Asg (Unfold.unbound h V) => F fun n => gsub (ext a) (res h n) := by
  have hclosed : ∀ n ∈ V, ∀ m ∈ vars (res h n), m ∈ Unfold.unbound h V := by
    intro n hnV m hm
    have h2 : h m = none := hg.vars_res (t := .var n) (by simpa using hm)
    simp only [Unfold.unbound, Finset.mem_filter, h2, and_true]
    exact hcl n hnV m hm
  have hPr : ∀ g : Nat → GTm, P fun n => gsub g (res h n) := fun g => by
    rw [hP]
    intro n t ht
    have := hg.respects_res n t ht
    simp only [gsub] at this ⊢
    rw [this, Tm.sub_sub]
  rw [isum_subtype]
  let e : {a : Asg V // P (ext a)} ≃ Asg (Unfold.unbound h V) :=
    { toFun := fun a => cut _ (ext a.1)
      invFun := fun b => ⟨cut V fun n => gsub (ext b) (res h n), hPc _ _ (fun n hn => (ext_cut hn).symm) (hPr (ext b))⟩
      left_inv := fun a => by
        apply Subtype.ext
        funext n
        simp only [cut]
        have hR : Respects h fun n => (ext a.1 n).1 := (hP _).1 a.2
        have h1 : gsub (ext (cut (Unfold.unbound h V) (ext a.1))) (res h n.1) = gsub (ext a.1) (res h n.1) :=
          gsub_congr fun m hm => ext_cut (hclosed n.1 n.2 m hm)
        have h2 : gsub (ext a.1) (res h n.1) = ext a.1 n.1 := by
          apply Subtype.ext
          have := hg.sub_res hR (.var n.1)
          simpa [gsub] using this
        have h3 : ext a.1 n.1 = a.1 n := by simp [ext, n.2]
        exact h1.trans (h2.trans h3)
      right_inv := fun b => by
        funext n
        have hn' : n.1 ∈ V ∧ h n.1 = none := by have := n.2; simpa [Unfold.unbound] using this
        simp only [cut]
        rw [show ext (cut V fun n => gsub (ext b) (res h n)) n.1 = gsub (ext b) (res h n.1) from ext_cut hn'.1]
        apply Subtype.ext
        simp [gsub, res_unbound hn'.2, ext, n.2] }
  rw [← isum_equiv e]
  refine isum_congr fun a => hF _ _ fun n hn => ?_
  have := congrArg (fun z : {a : Asg V // P (ext a)} => ext z.1 n) (e.left_inv a)
  exact this.symm.trans (ext_cut (θ := fun n => gsub (ext (e a)) (res h n)) hn)

end

/-- the head and the subgoals other than equations determine the variables of the rule, where its equations hold -/
def Determined (r : WRule W) : Prop :=
  ∀ θ φ : Nat → GTm, Eqs (fun n => (θ n).1) r.body → Eqs (fun n => (φ n).1) r.body →
    (∀ n ∈ vars r.head, θ n = φ n) → (∀ l ∈ r.body, ¬ IsEq l → ∀ n ∈ litVars l, θ n = φ n) → ∀ n ∈ rvars r, θ n = φ n

section
variable [CSemi W]

theorem determined_of_noeq {r : WRule W} (h : ∀ l ∈ r.body, ¬ IsEq l) : Determined r := by
  intro θ φ _ _ h1 h2 n hn
  simp only [rvars, Finset.mem_union] at hn
  rcases hn with hn | hn
  · exact h1 n hn
  · obtain ⟨l, hl, hn⟩ := mem_bodyVars.1 hn
    exact h2 l hl (h l hl) n hn

theorem bv_zero_of_eq {ops : Ops} (ho : OpsOk ops) {v : GTm → W} (hv : Bok ops v) {θ : Nat → GTm} {b : List (Lit W)}
    (h : ¬ Eqs (fun n => (θ n).1) b) : bv v θ b = 0 := by
  simp only [Eqs, not_forall] at h
  obtain ⟨x, y, hm, he⟩ := h
  obtain ⟨L, R, rfl⟩ := List.append_of_mem hm
  rw [bv_append, bv_cons, show lv v θ (.sub (eqTm x y)) = 0 from hv _ _ ?_, zero_mul, mul_zero]
  have : (gsub θ (eqTm x y)).1 = eqTm (x.sub fun n => (θ n).1) (y.sub fun n => (θ n).1) := by
    simp [gsub, eqTm, sub_app, sub_con]
  rw [this, bval_eq ho, if_neg he]

open Classical in
theorem contrib_ok {ops : Ops} (ho : OpsOk ops) {r : WRule W} {bs : List (Nat × Tm)} {ys : List (Lit W)} (o : Ok ops noHeap r.body bs ys)
    {v : GTm → W} (hv : Bok ops v) (x : GTm) :
    contrib r v x = (if Determined r then 1 else infty) * contrib (subRule (res (bindAll noHeap bs)) ⟨r.head, ys⟩) v x := by
  obtain ⟨hg, hresp, _, hvar, hval, _, hsrc, hkept, _, _, _⟩ := o
  set h := bindAll noHeap bs with hh
  set V := rvars r with hV
  set t' := subRule (res h) ⟨r.head, ys⟩ with ht'
  have hres0 : ∀ t : Tm, t.sub (res noHeap) = t := fun t => by
    rw [show res noHeap = Tm.var from funext fun n => res_unbound rfl, sub_id]
  have hcl : ∀ n ∈ V, ∀ m ∈ vars (res h n), m ∈ V := by
    intro n hn m hm
    rcases hvar (.var n) m (by simpa using hm) with h1 | ⟨l, hl, h1⟩
    · rw [hres0] at h1
      simp only [vars_var, Finset.mem_singleton] at h1
      exact h1 ▸ hn
    · have : litVars (subLit (res noHeap) l) = litVars l := by
        cases l with
        | val c => rfl
        | sub t => simp only [subLit, litVars, hres0]
      rw [this] at h1
      simp only [hV, rvars, Finset.mem_union]
      exact .inr (mem_bodyVars.2 ⟨l, hl, h1⟩)
  have hys : rvars (⟨r.head, ys⟩ : WRule W) ⊆ V := by
    intro n hn
    simp only [hV, rvars, Finset.mem_union] at hn ⊢
    rcases hn with hn | hn
    · exact .inl hn
    · obtain ⟨l, hl, hn⟩ := mem_bodyVars.1 hn
      rcases hsrc l hl with rfl | ⟨h1, _⟩
      · simp [litVars] at hn
      · exact .inr (mem_bodyVars.2 ⟨l, h1, hn⟩)
  have hsub : rvars t' ⊆ Unfold.unbound h V := by
    intro m hm
    obtain ⟨n, hn, hm⟩ := Unfold.mem_rvars_sub.1 hm
    simp only [Unfold.unbound, Finset.mem_filter]
    exact ⟨hcl n (hys hn) m hm, hg.vars_res (t := .var n) (by simpa using hm)⟩
  have hPE : ∀ θ : Nat → GTm, Eqs (fun n => (θ n).1) r.body ↔ Respects h fun n => (θ n).1 := fun θ => by
    rw [hresp]
    exact ⟨fun h => ⟨respects_noHeap _, h⟩, fun h => h.2⟩
  have hvarsEq : ∀ {x y : Tm}, Lit.sub (eqTm x y) ∈ r.body → vars x ⊆ V ∧ vars y ⊆ V := by
    intro x y hm
    have : litVars (Lit.sub (eqTm x y) : Lit W) ⊆ V := fun n hn => by
      simp only [hV, rvars, Finset.mem_union]
      exact .inr (mem_bodyVars.2 ⟨_, hm, hn⟩)
    constructor
    · exact fun n hn => this (by simp [litVars, eqTm, hn])
    · exact fun n hn => this (by simp [litVars, eqTm, hn])
  have hPc : ∀ θ φ : Nat → GTm, (∀ n ∈ V, θ n = φ n) → Eqs (fun n => (θ n).1) r.body → Eqs (fun n => (φ n).1) r.body := by
    intro θ φ hag hE x y hm
    have e1 : x.sub (fun n => (θ n).1) = x.sub (fun n => (φ n).1) :=
      congrArg Subtype.val (gsub_congr (θ := θ) (φ := φ) fun n hn => hag n ((hvarsEq hm).1 hn))
    have e2 : y.sub (fun n => (θ n).1) = y.sub (fun n => (φ n).1) :=
      congrArg Subtype.val (gsub_congr (θ := θ) (φ := φ) fun n hn => hag n ((hvarsEq hm).2 hn))
    rw [← e1, ← e2]; exact hE x y hm
  have hdet : Determined r ↔ rvars t' = Unfold.unbound h V := by
    constructor
    · intro hd
      apply Finset.Subset.antisymm hsub
      intro z hz
      by_contra hzt
      simp only [Unfold.unbound, Finset.mem_filter] at hz
      obtain ⟨g1, hg1⟩ : ∃ g1 : GTm, g1 ≠ g0 := ⟨⟨.con (.int 1), by simp [Ground]⟩, fun e => by
        have := congrArg Subtype.val e
        simp [g0] at this⟩
      have hsame : ∀ n, z ∉ vars (res h n) → gsub (fun _ => g0) (res h n) = gsub (fun m => if m = z then g1 else g0) (res h n) := by
        intro n hn
        exact gsub_congr fun m hm => by rw [if_neg]; rintro rfl; exact hn hm
      have hin : ∀ n ∈ rvars (⟨r.head, ys⟩ : WRule W), z ∉ vars (res h n) := fun n hn hz => hzt (Unfold.mem_rvars_sub.2 ⟨n, hn, hz⟩)
      have hrespg : ∀ g : Nat → GTm, Eqs (fun n => (gsub g (res h n)).1) r.body := fun g => by
        rw [hPE]
        intro n t ht
        have := hg.respects_res n t ht
        simp only [gsub] at this ⊢
        rw [this, Tm.sub_sub]
      have := hd (fun n => gsub (fun _ => g0) (res h n)) (fun n => gsub (fun m => if m = z then g1 else g0) (res h n)) (hrespg _) (hrespg _)
        (fun n hn => hsame n (hin n (by simp only [rvars, Finset.mem_union]; exact .inl hn)))
        (fun l hl hn n hnl => hsame n (by
          rcases hkept l hl hn with h1 | h1
          · exact hin n (by simp only [rvars, Finset.mem_union]; exact .inr (mem_bodyVars.2 ⟨l, h1, hnl⟩))
          · intro hz
            have : z ∈ litVars (subLit (res h) l) := Unfold.mem_litVars_sub.2 ⟨n, hnl, hz⟩
            rw [h1] at this; simp at this)) z hz.1
      have e2 := congrArg Subtype.val this
      simp only [gsub, res_unbound hz.2, sub_var, if_pos] at e2
      exact hg1 (Subtype.ext e2.symm)
    · intro he θ φ h1 h2 h3 h4 n hn
      have r1 := (hPE θ).1 h1
      have r2 := (hPE φ).1 h2
      have f1 : ∀ m, θ m = gsub θ (res h m) := fun m => Subtype.ext (by have := hg.sub_res r1 (.var m); simpa [gsub] using this.symm)
      have f2 : ∀ m, φ m = gsub φ (res h m) := fun m => Subtype.ext (by have := hg.sub_res r2 (.var m); simpa [gsub] using this.symm)
      have hag : ∀ m ∈ rvars (⟨r.head, ys⟩ : WRule W), θ m = φ m := by
        intro m hm
        simp only [rvars, Finset.mem_union] at hm
        rcases hm with hm | hm
        · exact h3 m hm
        · obtain ⟨l, hl, hm⟩ := mem_bodyVars.1 hm
          rcases hsrc l hl with rfl | ⟨a, b⟩
          · simp [litVars] at hm
          · exact h4 l a b m hm
      have hz : ∀ z ∈ Unfold.unbound h V, θ z = φ z := by
        intro z hz
        rw [← he] at hz
        obtain ⟨m, hm, hz⟩ := Unfold.mem_rvars_sub.1 hz
        exact (gsub_inj (t := res h m) (θ := θ) (φ := φ)).1 (by rw [← f1, ← f2, hag m hm]) z hz
      rw [f1, f2]
      exact gsub_congr fun z hz' => hz z (by
        simp only [Unfold.unbound, Finset.mem_filter]
        exact ⟨hcl n hn z hz', hg.vars_res (t := .var n) (by simpa using hz')⟩)
  have step1 : contrib r v x = isum fun a : Asg V => if Eqs (fun n => (ext a n).1) r.body then
      (if gsub (ext a) r.head = x then bv v (ext a) ys else 0) else 0 := by
    unfold contrib
    refine isum_congr fun a => ?_
    by_cases hE : Eqs (fun n => (ext a n).1) r.body
    · rw [if_pos hE, hval v hv _ ((hPE _).1 hE)]
    · rw [if_neg hE, bv_zero_of_eq ho hv hE, ite_self]
  rw [step1, isum_heap hg hcl (P := fun θ => Eqs (fun n => (θ n).1) r.body) hPE hPc (fun θ => if gsub θ r.head = x then bv v θ ys else 0)]
  · rw [if_congr hdet rfl rfl]
    unfold contrib
    rw [← isum_extra hsub]
    refine isum_congr fun a => ?_
    have e1 : gsub (ext (cut (rvars t') (ext a))) t'.head = gsub (fun n => gsub (ext a) (res h n)) r.head := by
      rw [← Unfold.gsub_sub]
      exact gsub_congr fun n hn => ext_cut (by simp only [rvars, Finset.mem_union]; exact .inl hn)
    have e2 : bv v (ext (cut (rvars t') (ext a))) t'.body = bv v (fun n => gsub (ext a) (res h n)) ys := by
      rw [← Unfold.bv_sub]
      exact bv_congr fun n hn => ext_cut (by simp only [rvars, Finset.mem_union]; exact .inr hn)
    rw [e1, e2]
  · intro θ φ hag
    have e1 : gsub θ r.head = gsub φ r.head := gsub_congr fun n hn => hag n (by simp only [hV, rvars, Finset.mem_union]; exact .inl hn)
    have e2 : bv v θ ys = bv v φ ys := bv_congr fun n hn => hag n (hys (by simp only [rvars, Finset.mem_union]; exact .inr hn))
    rw [e1, e2]

theorem contrib_fail {ops : Ops} {r : WRule W} {v : GTm → W} (h : ∀ θ : Nat → GTm, Respects noHeap (fun n => (θ n).1) → bv v θ r.body = 0) (x : GTm) :
    contrib r v x = 0 := by
  unfold contrib
  refine (isum_congr fun a => ?_).trans isum_zero
  rw [h _ (respects_noHeap _), ite_self]

end
/-! ### One turn of the loop -/

theorem mem_subs {q : Tm} {b : List (Lit W)} : q ∈ WRule.subs b ↔ Lit.sub q ∈ b := by
  simp only [WRule.subs, List.mem_filterMap]
  constructor
  · rintro ⟨l, hl, e⟩
    cases l with
    | val c => cases e
    | sub t => cases e; exact hl
  · exact fun h => ⟨_, h, rfl⟩

theorem plain_sub {t : Tm} (h : PlainTm t) (σ : Nat → Tm) : PlainTm (t.sub σ) := by
  obtain ⟨c, as, rfl, h1, h2, h3⟩ := h
  exact ⟨c, as.map (Tm.sub σ), by simp [sub_app, sub_con], h1, h2, h3⟩

theorem iseq_sub {t : Tm} (h : PlainTm t) {σ : Nat → Tm} (he : IsEq (.sub (t.sub σ) : Lit W)) : IsEq (.sub t : Lit W) := by
  obtain ⟨c, as, rfl, -⟩ := h
  obtain ⟨x, y, e⟩ := he
  simp only [eqTm, Lit.sub.injEq, sub_app, List.map_cons, sub_con, Tm.app.injEq, List.cons.injEq] at e
  have hl : as.length = 2 := by have := congrArg List.length e.2; simpa using this
  obtain ⟨a, b, rfl⟩ := List.length_eq_two.1 hl
  exact ⟨a, b, by rw [e.1]; rfl⟩

theorem iscmp_sub {ops : Ops} {t : Tm} (h : PlainTm t) {σ : Nat → Tm} (he : IsCmp ops (t.sub σ)) : IsCmp ops t := by
  obtain ⟨c, as, rfl, -⟩ := h
  obtain ⟨c', x, y, e, hc⟩ := he
  simp only [sub_app, List.map_cons, sub_con, Tm.app.injEq, List.cons.injEq, Tm.con.injEq] at e
  have hl : as.length = 2 := by have := congrArg List.length e.2; simpa using this
  obtain ⟨a, b, rfl⟩ := List.length_eq_two.1 hl
  exact ⟨c, a, b, rfl, by rw [e.1]; exact hc⟩

theorem sub_noHeap (t : Tm) : t.sub (res noHeap) = t := by
  rw [show res noHeap = Tm.var from funext fun n => res_unbound rfl, sub_id]

theorem subLit_noHeap (l : Lit W) : subLit (res noHeap) l = l := by
  cases l with
  | val c => rfl
  | sub t => simp only [subLit, sub_noHeap]

theorem subRule_noHeap (r : WRule W) : subRule (res noHeap) r = r := by
  simp only [subRule, sub_noHeap]
  rw [show (subLit (res noHeap) : Lit W → Lit W) = id from funext subLit_noHeap, List.map_id]

section
variable [CSemi W] [DecidableEq W]

theorem subs_ren (ρ : Nat → Nat) (b : List (Lit W)) : WRule.subs (b.map (renLit ρ)) = (WRule.subs b).map (Tm.sub fun n => .var (ρ n)) := by
  induction b with
  | nil => rfl
  | cons l b ih =>
    cases l with
    | val c => simpa [WRule.subs, renLit] using ih
    | sub t => simpa [WRule.subs, renLit] using ih

theorem vals_ren (ρ : Nat → Nat) (b : List (Lit W)) : WRule.vals (b.map (renLit ρ)) = WRule.vals b := by
  induction b with
  | nil => rfl
  | cons l b ih =>
    cases l with
    | val c => simpa [WRule.vals, renLit] using ih
    | sub t => simpa [WRule.vals, renLit] using ih

theorem subs_map_sub (xs : List Tm) : WRule.subs (xs.map Lit.sub : List (Lit W)) = xs := by
  induction xs with
  | nil => rfl
  | cons x xs ih => simpa [WRule.subs] using ih

theorem vals_map_sub (xs : List Tm) : WRule.vals (xs.map Lit.sub : List (Lit W)) = [] := by
  induction xs with
  | nil => rfl
  | cons x xs ih => simpa [WRule.vals] using ih

theorem fold_ren {dead : W → Bool} (ρ : Nat → Nat) (r : WRule W) : (renRule ρ r).fold dead = (r.fold dead).map (renRule ρ) := by
  simp only [WRule.fold, renRule, vals_ren, subs_ren, List.length_map, List.map_map]
  split
  · rfl
  · split
    · simp only [Option.map_some, renRule, List.map_map]; rfl
    · simp only [Option.map_some, renRule, List.map_cons, List.map_map, renLit]; rfl

theorem fold_idem {dead : W → Bool} {r r' : WRule W} (h : r.fold dead = some r') : r'.fold dead = some r' := by
  simp only [WRule.fold] at h
  split at h
  · cases h
  · rename_i hd
    split at h
    · rename_i hc
      cases h
      have hd1 : ¬ dead 1 = true := by rw [hc.1] at hd; exact hd
      have hl : 0 < (WRule.subs r.body).length := by simpa using hc.2
      simp only [WRule.fold, vals_map_sub, subs_map_sub, List.foldl_nil, hd1, List.length_map]
      simp [hl]
    · rename_i hc
      cases h
      have e1 : WRule.vals (.val ((WRule.vals r.body).foldl (· * ·) 1) :: (WRule.subs r.body).map Lit.sub) = [(WRule.vals r.body).foldl (· * ·) 1] := by
        have := vals_map_sub (W := W) (WRule.subs r.body)
        simpa [WRule.vals] using this
      have e2 : WRule.subs (.val ((WRule.vals r.body).foldl (· * ·) 1) :: (WRule.subs r.body).map Lit.sub) = WRule.subs r.body := by
        have := subs_map_sub (W := W) (WRule.subs r.body)
        simpa [WRule.subs] using this
      simp only [WRule.fold, e1, e2, List.foldl_cons, List.foldl_nil, one_mul, hd, hc, if_false, Bool.false_eq_true]

theorem update_empty {cv : Nat → Nat} {dead : W → Bool} (k : Nat) (t : WRule W) :
    ∃ b, ProgUpdate.update cv id dead k ⟨[], none⟩ t = some ⟨((t.fold dead).map fun t' => t'.fresh id k).toList, b⟩ := by
  unfold ProgUpdate.update
  cases h : t.fold dead with
  | none => exact ⟨none, rfl⟩
  | some t' =>
    simp only [ProgUpdate.getBuckets, ProgUpdate.makeGo, ProgUpdate.updateBucket]
    cases hc : t'.constRhs with
    | none => exact ⟨_, by simp; rfl⟩
    | some C => exact ⟨_, by simp [Dict.get]; rfl⟩

/-- what one turn makes of a rule -/
structure PassSpec (ops : Ops) (dead : W → Bool) (r : WRule W) (L : List (WRule W)) : Prop where
  len : L.length ≤ 1
  noeq : ∀ t ∈ L, ∀ l ∈ t.body, ¬ IsEq l
  done : (∀ l ∈ r.body, ¬ IsEq l) → ∀ t ∈ L, Done ops t
  plain : ∀ t ∈ L, Plain t.body
  prod : ∀ t ∈ L, (WRule.vals t.body).prod = (WRule.vals r.body).prod
  sub : ∀ t ∈ L, ∃ σ, t.head = r.head.sub σ ∧ ∀ q, Lit.sub q ∈ t.body → ∃ q0, Lit.sub q0 ∈ r.body ∧ ¬ IsEq (.sub q0 : Lit W) ∧ q = q0.sub σ
  folded : ∀ t ∈ L, t.fold dead = some t
  val : ∀ v, Bok ops v → ∀ x, contrib r v x = (open Classical in if Determined r then 1 else infty) * T L v x
  fix : Done ops r → r.fold dead = some r → ∃ t, L = [t] ∧ Fold.WVariant r t

theorem T_nil (v : GTm → W) (x : GTm) : T ([] : List (WRule W)) v x = 0 := by simp [T]

theorem T_single (r : WRule W) (v : GTm → W) (x : GTm) : T [r] v x = contrib r v x := by simp [T]

theorem pass_one {S : Type} [DecidableEq S] {e : Env W S} (ho : OpsOk e.ops) (hdead : ∀ c, e.dead c = true → c = 0)
    {p : Prog W} (hp : ∀ r ∈ p.rules, UserHead e.ops r.head) (hi : ∀ t ∈ p.inputs, UserHead e.ops t) (k : Nat) {r : WRule W} (hP : Plain r.body) :
    ∃ L k', PassSpec e.ops e.dead r L ∧ Evt (fun f => pass f e p k [r] = some (L, k', .done)) := by
  obtain ⟨a, hs, he⟩ := runB_run ho hp hi r.body good_noHeap hP
  cases hs with
  | fail h1 h2 =>
    refine ⟨[], k, ⟨by simp, by simp, by simp, by simp, by simp, by simp, by simp, fun v hv x => ?_, fun hd _ => ?_⟩, he.mono fun f e => ?_⟩
    · rw [contrib_fail (ops := Function.const _ none) (h1 v hv), T_nil, mul_zero]
    · obtain ⟨t, a, b, c⟩ := h2 hd.1
      rw [sub_noHeap] at c
      exact (hd.2 t a b c).elim
    · simp only [pass, forEach, e, cont, run, List.map_nil, addAll]
  | ok bs ys o =>
    set t := subRule (res (bindAll noHeap bs)) (⟨r.head, ys⟩ : WRule W) with ht
    have hd := Unfold.derefR_evt o.good (⟨r.head, ys⟩ : WRule W)
    obtain ⟨bk, hup⟩ := update_empty (cv := e.cv) (dead := e.dead) k t
    have hrun : Evt (fun f => pass f e p k [r] = some (((t.fold e.dead).map fun t' => t'.fresh id k).toList, (freshR k t).2, .done)) := by
      refine (he.and hd).mono fun f e => ?_
      simp only [pass, forEach, e.1, cont, run, push, e.2, o.undo, List.nil_append, List.map_cons, List.map_nil, addAll, ← ht, hup]
    refine ⟨_, _, ?_, hrun⟩
    cases hf : t.fold e.dead with
    | none =>
      simp only [Option.map_none, Option.toList_none]
      refine ⟨by simp, by simp, by simp, by simp, by simp, by simp, by simp, fun v hv x => ?_, fun hd hfr => ?_⟩
      · rw [contrib_ok ho o hv, ← ht, ProgUpdate.contrib_fold_none hdead hf, T_nil]
      · have hb := o.noeq hd.1
        have hy := o.same hd.1 fun t h1 h2 => by rw [sub_noHeap]; exact hd.2 t h1 h2
        rw [ht, hb, hy, bindAll, subRule_noHeap] at hf
        rw [show (⟨r.head, r.body⟩ : WRule W) = r from rfl, hfr] at hf
        cases hf
    | some t' =>
      obtain ⟨_, f1, f2, f3, _, _, _⟩ := WRule.fold_some hf
      obtain ⟨ρ, hρ, hinj⟩ := ProgUpdate.fresh_ren Function.injective_id k t'
      simp only [Option.map_some, Option.toList_some, hρ]
      have hq : ∀ q, Lit.sub q ∈ (renRule ρ t').body → ∃ q0, Lit.sub q0 ∈ ys ∧ q = (q0.sub (res (bindAll noHeap bs))).sub (fun n => .var (ρ n)) := by
        intro q hq
        rw [← mem_subs] at hq
        simp only [renRule] at hq
        rw [subs_ren, f2, List.mem_map] at hq
        obtain ⟨q1, hq1, rfl⟩ := hq
        rw [mem_subs, ht] at hq1
        simp only [subRule, List.mem_map] at hq1
        obtain ⟨l, hl, e⟩ := hq1
        cases l with
        | val c => cases e
        | sub q0 => cases e; exact ⟨q0, hl, rfl⟩
      have hpl : ∀ q0, Lit.sub q0 ∈ ys → PlainTm q0 ∧ ¬ IsEq (.sub q0 : Lit W) := by
        intro q0 h0
        rcases o.src _ h0 with e | ⟨a, b⟩
        · cases e
        · exact ⟨hP q0 a, b⟩
      refine ⟨by simp, ?_, ?_, ?_, ?_, ?_, ?_, fun v hv x => ?_, fun hd hfr => ?_⟩
      · intro s hs l hl
        rw [List.mem_singleton] at hs; subst hs
        rintro ⟨x, y, rfl⟩
        obtain ⟨q0, h0, e0⟩ := hq _ hl
        refine (hpl q0 h0).2 (iseq_sub (hpl q0 h0).1 (iseq_sub (plain_sub (hpl q0 h0).1 _) (σ := fun n => .var (ρ n)) ⟨x, y, by rw [e0]⟩))
      · intro hn s hs
        rw [List.mem_singleton] at hs; subst hs
        refine ⟨?_, ?_⟩
        · rintro l hl ⟨x, y, rfl⟩
          obtain ⟨q0, h0, e0⟩ := hq _ hl
          refine (hpl q0 h0).2 (iseq_sub (hpl q0 h0).1 (iseq_sub (plain_sub (hpl q0 h0).1 _) (σ := fun n => .var (ρ n)) ⟨x, y, by rw [e0]⟩))
        · intro q hql hc h0
          obtain ⟨q0, hq0, rfl⟩ := hq _ hql
          have hb := o.noeq hn
          rw [hb, bindAll, sub_noHeap] at h0 hc
          refine o.cmp q0 hq0 (iscmp_sub (hpl q0 hq0).1 hc) ?_
          rw [sub_noHeap]
          refine Finset.eq_empty_of_forall_notMem fun n hn => ?_
          have : ρ n ∈ vars (q0.sub fun n => .var (ρ n)) := mem_vars_sub.2 ⟨n, hn, by simp⟩
          rw [h0] at this; simp at this
      · intro s hs q hql
        rw [List.mem_singleton] at hs; subst hs
        obtain ⟨q0, hq0, rfl⟩ := hq _ hql
        exact plain_sub (plain_sub (hpl q0 hq0).1 _) _
      · intro s hs
        rw [List.mem_singleton] at hs; subst hs
        have : WRule.vals t.body = WRule.vals ys := by
          rw [ht]
          simp only [subRule]
          generalize ys = zs
          induction zs with
          | nil => rfl
          | cons l zs ih =>
            cases l with
            | val c => simpa [WRule.vals, subLit] using ih
            | sub t => simpa [WRule.vals, subLit] using ih
        simp only [renRule, vals_ren]
        rw [f3, this, o.prod]
      · intro s hs
        rw [List.mem_singleton] at hs; subst hs
        refine ⟨fun n => (res (bindAll noHeap bs) n).sub fun n => .var (ρ n), ?_, ?_⟩
        · simp only [renRule, f1, ht, subRule]
          rw [Tm.sub_sub]
        · intro q hql
          obtain ⟨q0, hq0, rfl⟩ := hq _ hql
          rcases o.src _ hq0 with e | ⟨a, b⟩
          · cases e
          · exact ⟨q0, a, b, by rw [Tm.sub_sub]⟩
      · intro s hs
        rw [List.mem_singleton] at hs; subst hs
        rw [fold_ren, fold_idem hf]; rfl
      · rw [contrib_ok ho o hv, ← ht, ← ProgUpdate.contrib_fold hf, T_single, contrib_ren hinj]
      · have hb := o.noeq hd.1
        have hy := o.same hd.1 fun t h1 h2 => by rw [sub_noHeap]; exact hd.2 t h1 h2
        rw [ht, hb, hy, bindAll, subRule_noHeap] at hf
        rw [show (⟨r.head, r.body⟩ : WRule W) = r from rfl, hfr] at hf
        cases hf
        exact ⟨_, rfl, ρ, hinj, rfl, List.Perm.refl _⟩

/-! ### The loop -/

theorem noeq_variant {r t : WRule W} (h : Fold.WVariant r t) (ht : ∀ l ∈ t.body, ¬ IsEq l) : ∀ l ∈ r.body, ¬ IsEq l := by
  obtain ⟨ρ, _, _, hb⟩ := h
  rintro l hl ⟨x, y, rfl⟩
  refine ht _ (hb.mem_iff.2 (List.mem_map_of_mem hl)) ⟨x.sub fun n => .var (ρ n), y.sub fun n => .var (ρ n), ?_⟩
  simp only [renLit, eqTm, sub_app, List.map_cons, List.map_nil, sub_con]

theorem done_variant {ops : Ops} {r t : WRule W} (h : Fold.WVariant r t) (ht : Done ops t) : Done ops r := by
  refine ⟨noeq_variant h ht.1, ?_⟩
  obtain ⟨ρ, _, _, hb⟩ := h
  rintro q hq ⟨c, x, y, rfl, hc⟩ h0
  refine ht.2 ((Tm.app [.con c, x, y]).sub fun n => .var (ρ n)) (hb.mem_iff.2 (List.mem_map_of_mem (f := renLit ρ) hq))
    ⟨c, x.sub fun n => .var (ρ n), y.sub fun n => .var (ρ n), by simp [sub_app, sub_con], hc⟩ ?_
  rw [Unfold.sub_closed h0]; exact h0

theorem progEq_one {S : Type} [DecidableEq S] {o : RuleOps (WRule W) S} (hx : Hook.Exact o) {r : WRule W} {L : List (WRule W)}
    (h : o.progEq false [r] L = true) : ∃ t, L = [t] ∧ Fold.WVariant r t := by
  obtain ⟨q', hq, hf⟩ := (RuleOps.C17_eq hx.lawful (by simp)).1 h
  cases hf with
  | cons h1 h2 =>
    cases h2
    rename_i t
    exact ⟨t, (List.singleton_perm.1 hq).symm, (hx.iff _ _).1 h1⟩

theorem progEq_variant {S : Type} [DecidableEq S] {o : RuleOps (WRule W) S} (hx : Hook.Exact o) {r t : WRule W} (h : Fold.WVariant r t) :
    o.progEq false [r] [t] = true :=
  (RuleOps.C17_eq hx.lawful (by simp)).2 ⟨[t], List.Perm.refl _, .cons ((hx.iff _ _).2 h) .nil⟩

theorem loop_nil {S : Type} [DecidableEq S] {e : Env W S} (hx : Hook.Exact e.eq) (f : Nat) (p : Prog W) (n k : Nat) :
    loop f e p (n + 1) [] k = some ([], k, .done) := by
  have : e.eq.progEq false [] [] = true := (RuleOps.C17_eq hx.lawful (by simp)).2 ⟨[], List.Perm.refl _, .nil⟩
  simp only [loop, pass, forEach, List.map_nil, addAll, this, if_true]

/-- what becomes of a rule: at most one rule, in which nothing is left to run.  It has the same constant factor, and its head
and subgoals are instances of the head and of subgoals other than equations.  At valuations that are right about builtins it
contributes what the rule did, except that the rule counts each of its solutions once for every value of a variable that only
occurs in equations that do not determine it. -/
structure LoopSpec (ops : Ops) (r : WRule W) (L : List (WRule W)) : Prop where
  len : L.length ≤ 1
  done : ∀ t ∈ L, Done ops t
  plain : ∀ t ∈ L, Plain t.body
  prod : ∀ t ∈ L, (WRule.vals t.body).prod = (WRule.vals r.body).prod
  sub : ∀ t ∈ L, ∃ σ, t.head = r.head.sub σ ∧ ∀ q, Lit.sub q ∈ t.body → ∃ q0, Lit.sub q0 ∈ r.body ∧ ¬ IsEq (.sub q0 : Lit W) ∧ q = q0.sub σ
  val : ∀ v, Bok ops v → ∀ x, contrib r v x = (open Classical in if Determined r then 1 else infty) * T L v x

theorem length_le_one {α : Type} {L : List α} (h : L.length ≤ 1) : L = [] ∨ ∃ t, L = [t] := by
  match L, h with
  | [], _ => exact .inl rfl
  | [t], _ => exact .inr ⟨t, rfl⟩

theorem loop_one {S : Type} [DecidableEq S] {e : Env W S} (hx : Hook.Exact e.eq) (ho : OpsOk e.ops) (hdead : ∀ c, e.dead c = true → c = 0)
    {p : Prog W} (hp : ∀ r ∈ p.rules, UserHead e.ops r.head) (hi : ∀ t ∈ p.inputs, UserHead e.ops t) (n k : Nat) {r : WRule W} (hP : Plain r.body) :
    ∃ L k', LoopSpec e.ops r L ∧ Evt (fun f => loop f e p (n + 3) [r] k = some (L, k', .done)) := by
  obtain ⟨L1, k1, s1, e1⟩ := pass_one ho hdead hp hi k hP
  by_cases q1 : e.eq.progEq false [r] L1 = true
  · obtain ⟨t, rfl, hv⟩ := progEq_one hx q1
    have hn := noeq_variant hv (s1.noeq t (by simp))
    refine ⟨[r], k1, ⟨by simp, ?_, ?_, ?_, ?_, fun v _ x => ?_⟩, e1.mono fun f e1 => ?_⟩
    · intro s hs; rw [List.mem_singleton] at hs; subst hs
      exact done_variant hv (s1.done hn t (by simp))
    · intro s hs; rw [List.mem_singleton] at hs; subst hs; exact hP
    · intro s hs; rw [List.mem_singleton] at hs; subst hs
      rfl
    · intro s hs; rw [List.mem_singleton] at hs; subst hs
      exact ⟨.var, (sub_id _).symm, fun q hq => ⟨q, hq, hn _ hq, (sub_id _).symm⟩⟩
    · rw [if_pos (determined_of_noeq hn), one_mul, T_single]
    · simp only [loop, e1, q1, if_true]
  · rcases length_le_one s1.len with rfl | ⟨r1, rfl⟩
    · refine ⟨[], k1, ⟨by simp, by simp, by simp, by simp, by simp, s1.val⟩, e1.mono fun f e1 => ?_⟩
      rw [loop]
      simp only [e1, if_neg q1, loop_nil hx]
    · have hP1 := s1.plain r1 (by simp)
      have hn1 := s1.noeq r1 (by simp)
      obtain ⟨L2, k2, s2, e2⟩ := pass_one ho hdead hp hi k1 hP1
      by_cases q2 : e.eq.progEq false [r1] L2 = true
      · obtain ⟨t, rfl, hv⟩ := progEq_one hx q2
        refine ⟨[r1], k2, ⟨by simp, ?_, s1.plain, s1.prod, s1.sub, s1.val⟩, (e1.and e2).mono fun f e => ?_⟩
        · intro s hs; rw [List.mem_singleton] at hs; subst hs
          exact done_variant hv (s2.done hn1 t (by simp))
        · simp only [loop, e.1, q1, e.2, q2, if_true, if_false, Bool.false_eq_true]
      · have hv2 : ∀ v, Bok e.ops v → ∀ x, contrib r v x = (open Classical in if Determined r then 1 else infty) * T L2 v x := by
          intro v hv x
          rw [s1.val v hv x, T_single, s2.val v hv x, if_pos (determined_of_noeq hn1), one_mul]
        rcases length_le_one s2.len with rfl | ⟨r2, rfl⟩
        · refine ⟨[], k2, ⟨by simp, by simp, by simp, by simp, by simp, hv2⟩, (e1.and e2).mono fun f e => ?_⟩
          rw [loop]
          simp only [e.1, if_neg q1]
          rw [loop]
          simp only [e.2, if_neg q2, loop_nil hx]
        · have hd2 := s2.done hn1 r2 (by simp)
          obtain ⟨L3, k3, s3, e3⟩ := pass_one ho hdead hp hi k2 (s2.plain r2 (by simp))
          obtain ⟨t, rfl, hv⟩ := s3.fix hd2 (s2.folded r2 (by simp))
          have q3 := progEq_variant hx hv
          refine ⟨[r2], k3, ⟨by simp, ?_, s2.plain, ?_, ?_, hv2⟩, (e1.and (e2.and e3)).mono fun f e => ?_⟩
          · intro s hs; rw [List.mem_singleton] at hs; subst hs; exact hd2
          · intro s hs; rw [List.mem_singleton] at hs; subst hs
            rw [s2.prod s (by simp), s1.prod r1 (by simp)]
          · intro s hs; rw [List.mem_singleton] at hs; subst hs
            obtain ⟨σ, h1, g1⟩ := s1.sub r1 (by simp)
            obtain ⟨τ, h2, g2⟩ := s2.sub s (by simp)
            refine ⟨fun n => (σ n).sub τ, by rw [h2, h1, Tm.sub_sub], fun q hq => ?_⟩
            obtain ⟨q1, a1, _, rfl⟩ := g2 q hq
            obtain ⟨q0, a0, b0, rfl⟩ := g1 q1 a1
            exact ⟨q0, a0, b0, by rw [Tm.sub_sub]⟩
          · simp only [loop, e.1, q1, e.2.1, q2, e.2.2, q3, if_true, if_false, Bool.false_eq_true]

theorem rules_spec {S : Type} [DecidableEq S] {e : Env W S} (hx : Hook.Exact e.eq) (ho : OpsOk e.ops) (hdead : ∀ c, e.dead c = true → c = 0)
    {p : Prog W} (hp : ∀ r ∈ p.rules, UserHead e.ops r.head) (hi : ∀ t ∈ p.inputs, UserHead e.ops t) (n : Nat) :
    ∀ (rs : List (WRule W)) (k : Nat) (R : List (WRule W)), (∀ r ∈ rs, Plain r.body) →
    ∃ Ls k', List.Forall₂ (LoopSpec e.ops) rs Ls ∧ Evt (fun f => rules f e p (n + 3) rs k R = some (R ++ Ls.flatten, k', .done)) := by
  intro rs
  induction rs with
  | nil => intro k R _; exact ⟨[], k, .nil, .of_all fun f => by simp [rules]⟩
  | cons r rs ih =>
    intro k R hP
    obtain ⟨L, k1, s1, e1⟩ := loop_one hx ho hdead hp hi n k (hP r (by simp))
    obtain ⟨Ls, k2, s2, e2⟩ := ih k1 (R ++ L) fun r hr => hP r (by simp [hr])
    refine ⟨L :: Ls, k2, .cons s1 s2, (e1.and e2).mono fun f e => ?_⟩
    simp only [rules, e.1, e.2, List.flatten_cons, List.append_assoc]

/-! ### Property C79 -/

variable {S : Type} [DecidableEq S]

/-- what is assumed: rules are compared up to renaming and order of the body, comparison operators are not among the other builtins,
only zero counts as zero, rules and inputs have ordinary heads, and subgoals are atoms other than `is`, `$not_matches`, `$lift`,
`$free` and `$bound` -/
structure Pre (e : Env W S) (p : Prog W) : Prop where
  exact : Hook.Exact e.eq
  ops : OpsOk e.ops
  dead : ∀ c, e.dead c = true → c = 0
  heads : ∀ r ∈ p.rules, UserHead e.ops r.head
  inputs : ∀ t ∈ p.inputs, UserHead e.ops t
  plain : ∀ r ∈ p.rules, Plain r.body

/-- **C79 (rule by rule).**  `run_builtins` returns, after at most three turns for each rule, and treats the rules one by one. -/
theorem C79_rules {e : Env W S} {p : Prog W} (h : Pre e p) (n k : Nat) :
    ∃ Ls k', Evt (fun f => runBuiltins f e p (n + 3) k = some (Ls.flatten, k', .done)) ∧ List.Forall₂ (LoopSpec e.ops) p.rules Ls := by
  obtain ⟨Ls, k', h1, h2⟩ := rules_spec h.exact h.ops h.dead h.heads h.inputs n p.rules k [] h.plain
  exact ⟨Ls, k', h2, h1⟩

theorem forall₂_T {ops : Ops} {rs : List (WRule W)} {Ls : List (List (WRule W))} (h : List.Forall₂ (LoopSpec ops) rs Ls)
    (hd : (infty : W) = 1 ∨ ∀ r ∈ rs, Determined r) {v : GTm → W} (hv : Bok ops v) (x : GTm) : T Ls.flatten v x = T rs v x := by
  induction h with
  | nil => rfl
  | @cons r L rs Ls h1 h2 ih =>
    have hd' : (infty : W) = 1 ∨ ∀ r ∈ rs, Determined r := hd.imp id fun h r hr => h r (by simp [hr])
    rw [List.flatten_cons, T_append, T_cons, ih hd', h1.val v hv x]
    rcases hd with hd | hd
    · rw [hd, ite_self, one_mul, add_comm]
    · rw [if_pos (hd r (by simp)), one_mul, add_comm]

theorem forall₂_mem {α β : Type} {R : α → β → Prop} {l : List α} {m : List β} (h : List.Forall₂ R l m) {b : β} (hb : b ∈ m) : ∃ a ∈ l, R a b := by
  induction h with
  | nil => simp at hb
  | cons h1 _ ih =>
    rcases List.mem_cons.1 hb with rfl | hb
    · exact ⟨_, by simp, h1⟩
    · obtain ⟨a, ha, h⟩ := ih hb
      exact ⟨a, by simp [ha], h⟩

theorem userHead_sub {ops : Ops} {t : Tm} (h : UserHead ops t) (σ : Nat → Tm) : UserHead ops (t.sub σ) := by
  obtain ⟨c, as, rfl, h1, h2⟩ := h
  exact ⟨c, as.map (Tm.sub σ), by simp [sub_app, sub_con], h1, h2⟩

/-- **C79 (values).**  The result has no more rules than the program, and the same step operator at every valuation that is right
about builtins — if adding is idempotent, or every rule determines its variables. -/
theorem C79_values {e : Env W S} {p : Prog W} (h : Pre e p) (hd : (infty : W) = 1 ∨ ∀ r ∈ p.rules, Determined r) (n k : Nat) :
    ∃ out k', Evt (fun f => runBuiltins f e p (n + 3) k = some (out, k', .done)) ∧ out.length ≤ p.rules.length ∧
      ∀ v, Bok e.ops v → ∀ x, T out v x = T p.rules v x := by
  obtain ⟨Ls, k', h1, h2⟩ := C79_rules h n k
  refine ⟨_, k', h1, ?_, fun v hv x => forall₂_T h2 hd hv x⟩
  clear h1 hd
  generalize p.rules = rs at h2
  induction h2 with
  | nil => simp
  | cons h1 _ ih =>
    have := h1.len
    simp only [List.flatten_cons, List.length_append, List.length_cons]
    omega

/-- **C79 (nothing left).**  In the result there are no equations, and every comparison has a variable; heads are ordinary, and the
subgoals are of the kinds that were assumed, so that `run_builtins` can be applied again. -/
theorem C79_done {e : Env W S} {p : Prog W} (h : Pre e p) (n k : Nat) :
    ∃ out k', Evt (fun f => runBuiltins f e p (n + 3) k = some (out, k', .done)) ∧ (∀ r ∈ out, Done e.ops r) ∧ Pre e ⟨out, p.inputs⟩ := by
  obtain ⟨Ls, k', h1, h2⟩ := C79_rules h n k
  have key : ∀ r ∈ Ls.flatten, ∃ r0 ∈ p.rules, ∃ L, r ∈ L ∧ LoopSpec e.ops r0 L := by
    intro r hr
    obtain ⟨L, hL, hr⟩ := List.mem_flatten.1 hr
    obtain ⟨r0, h0, hs⟩ := forall₂_mem h2 hL
    exact ⟨r0, h0, L, hr, hs⟩
  refine ⟨_, k', h1, fun r hr => ?_, h.exact, h.ops, h.dead, fun r hr => ?_, h.inputs, fun r hr => ?_⟩
  · obtain ⟨r0, h0, L, hL, hs⟩ := key r hr
    exact hs.done r hL
  · obtain ⟨r0, h0, L, hL, hs⟩ := key r hr
    obtain ⟨σ, e, -⟩ := hs.sub r hL
    rw [e]; exact userHead_sub (h.heads r0 h0) σ
  · obtain ⟨r0, h0, L, hL, hs⟩ := key r hr
    exact hs.plain r hL

theorem sol_bok {ops : Ops} {rs : List (WRule W)} (hr : ∀ r ∈ rs, UserHead ops r.head) {ins : List Tm} {d : GTm → W} (hd : Unfold.Data ops ins d)
    (w : GTm → W) : Bok ops (fun x => d x + T rs w x) := by
  intro y b hb
  have := hd y
  simp only [hb] at this
  simp only [this, Unfold.T_builtin hr hb, add_zero]

/-- **C79 (solutions).**  The result has the same solutions as the program. -/
theorem C79_solutions {e : Env W S} {p : Prog W} (h : Pre e p) (hd : (infty : W) = 1 ∨ ∀ r ∈ p.rules, Determined r)
    {d : GTm → W} (hdat : Unfold.Data e.ops p.inputs d) (n k : Nat) :
    ∃ out k', Evt (fun f => runBuiltins f e p (n + 3) k = some (out, k', .done)) ∧ ∀ v, Sol out d v ↔ Sol p.rules d v := by
  obtain ⟨Ls, k', h1, h2⟩ := C79_rules h n k
  have hh : ∀ r ∈ Ls.flatten, UserHead e.ops r.head := by
    intro r hr
    obtain ⟨L, hL, hr⟩ := List.mem_flatten.1 hr
    obtain ⟨r0, h0, hs⟩ := forall₂_mem h2 hL
    obtain ⟨σ, e, -⟩ := hs.sub r hr
    rw [e]; exact userHead_sub (h.heads r0 h0) σ
  refine ⟨_, k', h1, fun v => ⟨fun hv x => ?_, fun hv x => ?_⟩⟩
  · have hb : Bok e.ops v := by
      have := sol_bok hh hdat v
      rwa [show (fun x => d x + T Ls.flatten v x) = v from funext fun x => (hv x).symm] at this
    rw [← forall₂_T h2 hd hb]; exact hv x
  · have hb : Bok e.ops v := by
      have := sol_bok h.heads hdat v
      rwa [show (fun x => d x + T p.rules v x) = v from funext fun x => (hv x).symm] at this
    rw [forall₂_T h2 hd hb]; exact hv x

end

section
variable [OSemi W] [DecidableEq W] {S : Type} [DecidableEq S]

/-- **C79 (least solution).**  Naive evaluation of the result is at most one round behind that of the program, and conversely: the two
have the same upper bounds on every item. -/
theorem C79_rounds {e : Env W S} {p : Prog W} (h : Pre e p) (hd : (infty : W) = 1 ∨ ∀ r ∈ p.rules, Determined r)
    {d : GTm → W} (hdat : Unfold.Data e.ops p.inputs d) (n k : Nat) :
    ∃ out k', Evt (fun f => runBuiltins f e p (n + 3) k = some (out, k', .done)) ∧
      (∀ m x, rounds p.rules d m x ≤ rounds out d (m + 1) x) ∧ (∀ m x, rounds out d m x ≤ rounds p.rules d (m + 1) x) ∧
      ∀ x b, (∀ m, rounds p.rules d m x ≤ b) ↔ ∀ m, rounds out d m x ≤ b := by
  obtain ⟨Ls, k', h1, h2⟩ := C79_rules h n k
  have hh : ∀ r ∈ Ls.flatten, UserHead e.ops r.head := by
    intro r hr
    obtain ⟨L, hL, hr⟩ := List.mem_flatten.1 hr
    obtain ⟨r0, h0, hs⟩ := forall₂_mem h2 hL
    obtain ⟨σ, e, -⟩ := hs.sub r hr
    rw [e]; exact userHead_sub (h.heads r0 h0) σ
  have up : ∀ m x, rounds p.rules d m x ≤ rounds Ls.flatten d (m + 1) x := by
    intro m
    induction m with
    | zero => intro x; exact OSemi.zero_le' _
    | succ m ih =>
      intro x
      refine le_trans (OSemi.add_le (le_refl (d x)) (T_mono ih p.rules x)) ?_
      have := forall₂_T h2 hd (sol_bok hh hdat (rounds Ls.flatten d m)) x
      exact le_of_eq (congrArg (d x + ·) this.symm)
  have down : ∀ m x, rounds Ls.flatten d m x ≤ rounds p.rules d (m + 1) x := by
    intro m
    induction m with
    | zero => intro x; exact OSemi.zero_le' _
    | succ m ih =>
      intro x
      refine le_trans (OSemi.add_le (le_refl (d x)) (T_mono ih Ls.flatten x)) ?_
      have := forall₂_T h2 hd (sol_bok h.heads hdat (rounds p.rules d m)) x
      exact le_of_eq (congrArg (d x + ·) this)
  exact ⟨_, k', h1, up, down, fun x b => ⟨fun hb m => le_trans (down m x) (hb _), fun hb m => le_trans (up m x) (hb _)⟩⟩

end

/-! ### Findings -/

section
variable [CSemi W] [DecidableEq W] {S : Type} [DecidableEq S]

/-- `goal += (X = Y).` -/
def pairRule : WRule W := ⟨.app [.con (.str "goal")], [.sub (eqTm (.var 0) (.var 1))]⟩

def goalTm : GTm := ⟨.app [.con (.str "goal")], by simp [Ground]⟩

theorem not_determined : ¬ Determined (pairRule (W := W)) := by
  intro h
  have := h (fun _ => g0) (fun _ => ⟨.con (.int 1), by simp [Ground]⟩) (fun x y _ => ?_) (fun x y _ => ?_) (by simp [pairRule])
    (by intro l hl hn; simp only [pairRule, List.mem_singleton] at hl; exact (hn ⟨_, _, hl⟩).elim) 0 (by simp [pairRule, rvars, bodyVars, litVars, eqTm])
  · have := congrArg Subtype.val this
    simp [g0] at this
  all_goals
    rename_i hm
    simp only [pairRule, List.mem_singleton, eqTm, Lit.sub.injEq, Tm.app.injEq, List.cons.injEq, true_and, and_true] at hm
    simp [hm.1, hm.2]

theorem runB_append (f : Nat) (ops : Ops) (p : Prog W) (R : List (Lit W)) : ∀ (L : List (Lit W)) (k : List (Lit W) → Body (US W)),
    runB f ops p (L ++ R) k = runB f ops p L fun vs => runB f ops p R fun ws => k (vs ++ ws) := by
  intro L
  induction L with
  | nil => intro k; funext h s; simp only [List.nil_append, runB]
  | cons l L ih =>
    intro k
    funext h s
    cases l with
    | val c => simp only [List.cons_append, runB, ih]
    | sub q =>
      cases q with
      | var n => simp only [List.cons_append, runB]
      | con c => simp only [List.cons_append, runB, ih, List.append_assoc]
      | app as => simp only [List.cons_append, runB, ih, List.append_assoc]

/-- **C79 (finding).**  `is_builtin` counts `$free` and `$bound` as builtins, and `lookup` has no case for them: a rule with such a
subgoal disappears. -/
theorem C79_free_dropped {e : Env W S} {p : Prog W} (h : Pre e p) {c : Const} (hc : c = .str "$free" ∨ c = .str "$bound") (hops : e.ops c = none)
    (hh : ∀ r ∈ p.rules, hfn r.head ≠ some c) (hi : ∀ t ∈ p.inputs, hfn t ≠ some c) (head x : Tm) {L : List (Lit W)} (R : List (Lit W)) (hL : Plain L)
    (n k : Nat) : Evt (fun f => loop f e p (n + 2) [⟨head, L ++ .sub (.app [.con c, x]) :: R⟩] k = some ([], k, .done)) := by
  have hB : isB e.ops (.app [.con c, x]) = true := by rcases hc with rfl | rfl <;> simp [isB]
  have hm : unmodelled c = false := by rcases hc with rfl | rfl <;> decide
  have hoff : offers p.rules c = [] := by
    unfold offers
    rw [List.filter_eq_nil_iff]
    rintro ⟨r, i⟩ hmem he
    exact hh r (List.fst_mem_of_mem_zipIdx hmem) (by simpa using he)
  have hin : ∀ {h' : Heap}, Good h' → ∀ {ts : List Tm}, (∀ t ∈ ts, UserHead e.ops t) → (∀ t ∈ ts, hfn t ≠ some c) →
      Evt (fun f => isInput f (.app [.con c, x]) h' ts = some false) := by
    intro h' hg ts
    induction ts with
    | nil => intro _ _; exact .of_all fun f => rfl
    | cons t ts ih =>
      intro h1 h2
      obtain ⟨c', as', e', _, _⟩ := h1 t (by simp)
      obtain ⟨r, hs, he⟩ := unify_result hg t (.app [.con c, x])
      cases r with
      | some bs =>
        cases hs with
        | ok _ hg' hr hn hd hv =>
        have e := ((hr _).1 hg'.respects_res).2
        rw [e'] at e
        simp only [sub_app, List.map_cons, sub_con, Tm.app.injEq, List.cons.injEq, Tm.con.injEq] at e
        exact (h2 t (by simp) (by rw [e', ← e.1]; rfl)).elim
      | none =>
        refine (he.and (ih (fun t h => h1 t (by simp [h])) fun t h => h2 t (by simp [h]))).mono fun f e => ?_
        simp only [isInput, unifiesF, e.1, run, Option.map_some, e.2]
  obtain ⟨a, hs, he⟩ := runB_run h.ops h.heads h.inputs L good_noHeap hL
  have hpass : Evt (fun f => pass f e p k [⟨head, L ++ .sub (.app [.con c, x]) :: R⟩] = some ([], k, .done)) := by
    have hnil : ∀ (f : Nat) {h' : Heap}, isInput f (.app [.con c, x]) h' p.inputs = some false → ∀ (k' : List (Lit W) → Body (US W)) s,
        runB f e.ops p (.sub (.app [.con c, x]) :: R) k' h' s = some (h', s, .done) := by
      intro f h' hf k' s
      simp only [runB, hB, if_true, hf, lookup, hm, hops, Bool.false_eq_true, if_false]
      simp only [hoff, forEach]
    cases hs with
    | fail h1 h2 =>
      refine he.mono fun f e => ?_
      simp only [pass, forEach, runB_append, e, cont, run, List.map_nil, addAll]
    | ok bs ys o =>
      refine (he.and (hin o.good h.inputs hi)).mono fun f e => ?_
      simp only [pass, forEach, runB_append, e.1, cont, run, hnil f e.2, o.undo, List.map_nil, addAll]
  refine hpass.mono fun f e1 => ?_
  rw [loop]
  have : e.eq.progEq false [⟨head, L ++ .sub (.app [.con c, x]) :: R⟩] [] = false := by simp [RuleOps.progEq]
  simp only [e1, this, Bool.false_eq_true, if_false, loop_nil h.exact]

end

section
open Classical

theorem infty_top : (infty : ENNReal) = ⊤ := by
  have : Infinite GTm := Infinite.of_injective (fun n : Nat => (⟨.con (.int n), by simp [Ground]⟩ : GTm)) fun a b h => by
    have := congrArg Subtype.val h
    simpa using this
  exact ENNReal.tsum_const_eq_top_of_ne_zero one_ne_zero

/-- **C79 (finding).**  The solutions of an equation that does not determine its variables are no longer counted: `goal += (X = Y).` has the
value infinity, and `run_builtins` makes it `goal += 1.` -/
theorem C79_multiplicity_lost {S : Type} [DecidableEq S] {e : Env ENNReal S} (h : Pre e ⟨[pairRule], []⟩) (n k : Nat) :
    ∃ out k', Evt (fun f => runBuiltins f e ⟨[pairRule], []⟩ (n + 3) k = some (out, k', .done)) ∧
      ∀ v, Bok e.ops v → T [pairRule] v goalTm = ⊤ ∧ T out v goalTm = 1 := by
  obtain ⟨Ls, k', h1, h2⟩ := C79_rules h n k
  refine ⟨_, k', h1, fun v hv => ?_⟩
  cases h2 with
  | cons hs h3 =>
  cases h3
  rename_i L
  rw [List.flatten_cons, List.flatten_nil, List.append_nil, T_single]
  have hval := hs.val v hv goalTm
  rw [if_neg not_determined, infty_top] at hval
  have hpos : contrib pairRule v goalTm ≠ 0 := by
    unfold contrib
    intro h0
    have h0' : (∑' a : Asg (rvars (pairRule (W := ENNReal))), if gsub (ext a) pairRule.head = goalTm then bv v (ext a) pairRule.body else 0) = 0 := h0
    rw [ENNReal.tsum_eq_zero] at h0'
    have := h0' (cut _ fun _ => g0)
    have e0 : ∀ n, ext (cut (rvars (pairRule (W := ENNReal))) fun _ => g0) n = g0 := fun n => by
      simp only [ext, cut]; split <;> rfl
    rw [if_pos (by apply Subtype.ext; simp [gsub, pairRule, goalTm, sub_app, sub_con]), show pairRule.body = [.sub (eqTm (.var 0) (.var 1))] from rfl, bv_cons,
      bv_nil, mul_one] at this
    rw [show lv v (ext (cut (rvars (pairRule (W := ENNReal))) fun _ => g0)) (.sub (eqTm (.var 0) (.var 1))) = 1 from hv _ _ ?_] at this
    · exact one_ne_zero this
    · have : (gsub (ext (cut (rvars (pairRule (W := ENNReal))) fun _ => g0)) (eqTm (.var 0) (.var 1))).1 = eqTm g0.1 g0.1 := by
        simp [gsub, eqTm, sub_app, sub_con, e0]
      rw [this, bval_eq h.ops, if_pos rfl]
  rcases length_le_one hs.len with rfl | ⟨t, rfl⟩
  · rw [T_nil, mul_zero] at hval
    exact (hpos hval).elim
  · have ht : T [t] v goalTm = 1 := by
      obtain ⟨σ, e1, e2⟩ := hs.sub t (by simp)
      have hsub : WRule.subs t.body = [] := by
        rw [List.eq_nil_iff_forall_not_mem]
        intro q hq
        obtain ⟨q0, a, b, _⟩ := e2 q (mem_subs.1 hq)
        simp only [pairRule, List.mem_singleton] at a
        exact b ⟨_, _, a⟩
      have hp := hs.prod t (by simp)
      rw [show (WRule.vals (pairRule (W := ENNReal)).body).prod = 1 by simp [pairRule, WRule.vals]] at hp
      have hc : contrib t v goalTm = contrib (⟨goalTm.1, []⟩ : WRule ENNReal) v goalTm :=
        ProgUpdate.contrib_same (by rw [e1]; simp [pairRule, goalTm, sub_app, sub_con]) (by rw [hsub]; rfl) (by rw [hp]; simp [WRule.vals]) v goalTm
      rw [T_single, hc]
      have hV : rvars (⟨goalTm.1, []⟩ : WRule ENNReal) = ∅ := by simp [rvars, bodyVars, goalTm]
      rw [contrib_eq hV]
      have : Unique (Asg ∅) := ⟨⟨fun n => absurd n.2 (Finset.notMem_empty _)⟩, fun a => funext fun n => absurd n.2 (Finset.notMem_empty _)⟩
      rw [isum_unique, if_pos, bv_nil]
      apply Subtype.ext
      simp [gsub, goalTm, sub_app, sub_con]
    rw [ht, mul_one] at hval
    exact ⟨hval, ht⟩

end

/-! ### Examples -/

section
open Unfold (ltOps at')

/-- rules compared up to renaming and order -/
noncomputable def exE : Env TV Unit := ⟨ltOps, id, fun c => decide (c = 0), Fold.variantOps⟩

/-- `a(X) += b(X) * (X = f(Y)) * (1 < 2) * c(Y, Z) * (Z < 3).` and `a(X) += b(X) * (2 < 1).` -/
def exP : Prog TV := ⟨[
  ⟨at' "a" [.var 0], [.sub (at' "b" [.var 0]), .sub (eqTm (.var 0) (at' "f" [.var 1])), .sub (at' "<" [.con (.int 1), .con (.int 2)]),
    .sub (at' "c" [.var 1, .var 2]), .sub (at' "<" [.var 2, .con (.int 3)])]⟩,
  ⟨at' "a" [.var 0], [.sub (at' "b" [.var 0]), .sub (at' "<" [.con (.int 2), .con (.int 1)])]⟩], [at' "b" [.var 0], at' "c" [.var 0, .var 1]]⟩

theorem exOps : OpsOk ltOps where
  eq := by decide
  mod := by
    intro c hc
    simp only [ltOps] at hc
    split at hc
    · rename_i h; subst h; decide
    · exact (hc rfl).elim

/-- the assumptions are met -/
theorem exPre : Pre exE exP where
  exact := ⟨Fold.variantOps_faithful.lawful, fun r s => by simp [exE, Fold.variantOps]⟩
  ops := exOps
  dead := fun c h => by simpa [exE] using h
  heads := by
    intro r hr
    simp only [exP, List.mem_cons, List.not_mem_nil, or_false] at hr
    rcases hr with rfl | rfl <;> exact ⟨.str "a", _, rfl, by decide, by decide⟩
  inputs := by
    intro r hr
    simp only [exP, List.mem_cons, List.not_mem_nil, or_false] at hr
    rcases hr with rfl | rfl
    · exact ⟨.str "b", _, rfl, by decide, by decide⟩
    · exact ⟨.str "c", _, rfl, by decide, by decide⟩
  plain := by
    intro r hr t ht
    simp only [exP, List.mem_cons, List.not_mem_nil, or_false] at hr
    rcases hr with rfl | rfl
    · simp only [List.mem_cons, List.not_mem_nil, or_false, Lit.sub.injEq] at ht
      rcases ht with rfl | rfl | rfl | rfl | rfl <;> exact ⟨_, _, rfl, by decide, by decide, by decide⟩
    · simp only [List.mem_cons, List.not_mem_nil, or_false, Lit.sub.injEq] at ht
      rcases ht with rfl | rfl <;> exact ⟨_, _, rfl, by decide, by decide, by decide⟩

theorem infty_tv : (infty : TV) = 1 := by rw [infty, show (isum fun _ : GTm => (1 : TV)) = .t from (TV.any_iff _).2 ⟨g0, rfl⟩]; rfl

/-- in `a += b(X) * (X = f(Y)).` the subgoal determines `X`, and with the equation `Y` -/
example : Determined (⟨at' "a" [], [.sub (at' "b" [.var 0]), .sub (eqTm (.var 0) (at' "f" [.var 1]))]⟩ : WRule ENNReal) := by
  intro θ φ h1 h2 _ h4 n hn
  have e0 : θ 0 = φ 0 := h4 (.sub (at' "b" [.var 0])) (by simp) (by rintro ⟨x, y, e⟩; simp [eqTm, at'] at e) 0 (by simp [litVars, at'])
  have a1 := h1 (.var 0) (at' "f" [.var 1]) (by simp)
  have a2 := h2 (.var 0) (at' "f" [.var 1]) (by simp)
  simp only [sub_var, at', sub_app, List.map_cons, List.map_nil, sub_con] at a1 a2
  rw [e0, a2] at a1
  simp only [Tm.app.injEq, List.cons.injEq, and_true, true_and] at a1
  simp only [rvars, bodyVars, litVars, at', eqTm] at hn
  simp at hn
  rcases hn with rfl | rfl
  · exact e0
  · exact Subtype.ext a1.symm

/-- addition of truth values is idempotent -/
example : ∃ out k', Evt (fun f => runBuiltins f exE exP 3 10 = some (out, k', .done)) ∧ out.length ≤ 2 ∧
    ∀ v, Bok ltOps v → ∀ x, T out v x = T exP.rules v x := C79_values exPre (.inl infty_tv) 0 10

open Classical in
/-- the assumptions of `C79_multiplicity_lost` are met -/
example : Pre (⟨ltOps, id, fun c => decide (c = 0), Fold.variantOps⟩ : Env ENNReal Unit) ⟨[pairRule], []⟩ where
  exact := ⟨Fold.variantOps_faithful.lawful, fun r s => by simp [Fold.variantOps]⟩
  ops := exOps
  dead := fun c h => by simpa using h
  heads := by
    intro r hr
    rw [List.mem_singleton] at hr; subst hr
    exact ⟨.str "goal", _, rfl, by decide, by decide⟩
  inputs := by simp
  plain := by
    intro r hr t ht
    rw [List.mem_singleton] at hr; subst hr
    simp only [pairRule, List.mem_singleton, Lit.sub.injEq] at ht
    subst ht
    exact ⟨_, _, rfl, by decide, by decide, by decide⟩

/-- `$free` as it is added by `types.py:37` -/
example : Evt (fun f => loop f exE exP 2 [⟨at' "a" [.var 0], [.sub (at' "b" [.var 1])] ++ .sub (.app [.con (.str "$free"), .var 0]) :: []⟩] 7 = some ([], 7, .done)) :=
  C79_free_dropped exPre (.inl rfl) (by decide) (by simp [exP, at', hfn]) (by simp [exP, at', hfn]) _ _ []
    (by intro t ht; simp only [List.mem_singleton, Lit.sub.injEq] at ht; subst ht; exact ⟨_, _, rfl, by decide, by decide, by decide⟩) 0 7

/-- rules compared after numbering their variables -/
def canOps : RuleOps (WRule Nat) Unit := ⟨fun r s => decide ((freshR 0 r).1 = (freshR 0 s).1), fun _ => (), fun _ => 0, fun _ => 0⟩

/-- the equation is solved, `1 < 2` goes, `Z < 3` stays, and the second rule goes with `2 < 1` -/
example : (runBuiltins 20 ⟨ltOps, id, fun c => decide (c = 0), canOps⟩ ⟨[
    ⟨at' "a" [.var 0], [.sub (at' "b" [.var 0]), .sub (eqTm (.var 0) (at' "f" [.var 1])), .sub (at' "<" [.con (.int 1), .con (.int 2)]),
      .sub (at' "c" [.var 1, .var 2]), .sub (at' "<" [.var 2, .con (.int 3)])]⟩,
    ⟨at' "a" [.var 0], [.sub (at' "b" [.var 0]), .sub (at' "<" [.con (.int 2), .con (.int 1)])]⟩], [at' "b" [.var 0], at' "c" [.var 0, .var 1]]⟩ 3 10).map (·.1) =
    some [⟨at' "a" [at' "f" [.var 10]], [.sub (at' "b" [at' "f" [.var 10]]), .sub (at' "c" [.var 10, .var 11]), .sub (at' "<" [.var 11, .con (.int 3)])]⟩] := by
  decide +kernel

/-- an equation that makes a comparison ground after it was passed over: the second turn decides it -/
example : (runBuiltins 20 ⟨ltOps, id, fun c => decide (c = 0), canOps⟩ ⟨[
    ⟨at' "a" [], [.sub (at' "<" [.var 0, .con (.int 3)]), .sub (eqTm (.var 0) (.con (.int 2)))]⟩], []⟩ 3 10).map (·.1) =
    some [⟨at' "a" [], [.val 1]⟩] := by
  decide +kernel

/-- the multiplicity of `goal += (X = Y).` -/
example : (runBuiltins 20 ⟨ltOps, id, fun c => decide (c = 0), canOps⟩ ⟨[⟨at' "goal" [], [.sub (eqTm (.var 0) (.var 1))]⟩], []⟩ 3 10).map (·.1) =
    some [⟨at' "goal" [], [.val 1]⟩] := by
  decide +kernel

/-- `$free` drops the rule -/
example : (runBuiltins 20 ⟨ltOps, id, fun c => decide (c = 0), canOps⟩ ⟨[⟨at' "a" [.var 0], [.sub (at' "$free" [.var 0])]⟩], []⟩ 3 10).map (·.1) = some [] := by
  decide +kernel

end

end RunB
end Verif
