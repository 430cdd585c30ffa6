/-
Flattening keeps the step operator of a program (property C56 for `/repo/dyna/program.py`, `normalize_unification2`).
-/
import Verif.Norm
import Verif.SlashSem

set_option linter.unusedSectionVars false
set_option linter.unusedSimpArgs false

namespace Verif
open Tm Sem

namespace Norm
variable {W : Type}

/-! ### Specification -/

/-- the ground item `a = b` -/
def eqItem (a b : GTm) : GTm := ⟨.app [.con (.str "="), a.1, b.1], by
  have h1 := a.2
  have h2 := b.2
  unfold Ground at *
  simp [vars, varsL, h1, h2]⟩

open Classical in
/-- the values of the items `a = b` are those of equality -/
def EqOK [CSemi W] (v : GTm → W) : Prop := ∀ a b, v (eqItem a b) = if a = b then 1 else 0

/-- a term without nested structure -/
def Flat (t : Tm) : Prop := ∃ as, t = .app as ∧ ∀ a ∈ as.tail, ∃ n, a = .var n

/-- `V = V'`, `V = c` or `V = f(V1, ..., Vn)` -/
def Shallow (t : Tm) : Prop := ∃ n u, t = .app [.con (.str "="), .var n, u] ∧ ((∃ m, u = .var m) ∨ (∃ c, u = .con c) ∨ Flat u)

/-- the normal form of the docstring -/
structure Normal (r : WRule W) : Prop where
  head : Flat r.head
  body : ∀ t, Lit.sub t ∈ r.body → Flat t ∨ Shallow t

/-- every head and subgoal is a term with a functor -/
structure Terms (r : WRule W) : Prop where
  head : ∃ g as, r.head = .app (g :: as)
  body : ∀ t, Lit.sub t ∈ r.body → ∃ g as, t = .app (g :: as)

/-! ### What the new equations say -/

/-- the equations hold -/
def Holds (φ : Nat → GTm) (res : List (Nat × Tm)) : Prop := ∀ p ∈ res, φ p.1 = gsub φ p.2

/-- the new variables -/
def newV (res : List (Nat × Tm)) : Finset Nat := (res.map Prod.fst).toFinset
def resV (res : List (Nat × Tm)) : Finset Nat := bodyVars (W := TV) (res.map eqn)

theorem mem_newV {res : List (Nat × Tm)} {n : Nat} : n ∈ newV res ↔ ∃ p ∈ res, p.1 = n := by simp [newV]
theorem mem_resV {res : List (Nat × Tm)} {n : Nat} : n ∈ resV res ↔ ∃ p ∈ res, n = p.1 ∨ n ∈ vars p.2 := by
  unfold resV
  rw [mem_bodyVars]
  constructor
  · rintro ⟨l, hl, hn⟩
    obtain ⟨p, hp, rfl⟩ := List.mem_map.1 hl
    refine ⟨p, hp, ?_⟩
    simpa [eqn, litVars, vars, varsL] using hn
  · rintro ⟨p, hp, hn⟩
    exact ⟨eqn p, List.mem_map.2 ⟨p, hp, rfl⟩, by simpa [eqn, litVars, vars, varsL] using hn⟩

theorem holds_append {φ : Nat → GTm} {r s : List (Nat × Tm)} : Holds φ (r ++ s) ↔ Holds φ r ∧ Holds φ s := by
  simp [Holds, or_imp, forall_and]

/-- the equations `res` define variables in `[k, k')` in terms of the variables `V`; with the variables `V'` of the result nothing is lost -/
structure Defs (k k' : Nat) (V V' : Finset Nat) (res : List (Nat × Tm)) : Prop where
  le : k ≤ k'
  rng : ∀ p ∈ res, k ≤ p.1 ∧ p.1 < k'
  defs : ∃ σ : Nat → Tm, (∀ p ∈ res, vars (σ p.1) ⊆ V) ∧ ∀ φ, Holds φ res ↔ ∀ p ∈ res, φ p.1 = gsub φ (σ p.1)
  vs : V' ∪ resV res = V ∪ newV res

theorem Defs.nil {k k' : Nat} (h : k ≤ k') (V : Finset Nat) : Defs k k' V V [] :=
  ⟨h, by simp, ⟨fun n => .var n, by simp, fun φ => by simp [Holds]⟩, by ext n; simp [mem_resV, mem_newV]⟩

theorem Defs.append {k k1 k2 : Nat} {V1 V1' V2 V2' : Finset Nat} {r1 r2 : List (Nat × Tm)} (h1 : Defs k k1 V1 V1' r1) (h2 : Defs k1 k2 V2 V2' r2) :
    Defs k k2 (V1 ∪ V2) (V1' ∪ V2') (r1 ++ r2) := by
  have hle := h1.le
  have hle2 := h2.le
  refine ⟨by omega, fun p hp => ?_, ?_, ?_⟩
  · rcases List.mem_append.1 hp with hp | hp
    · have := h1.rng p hp; omega
    · have := h2.rng p hp; omega
  · obtain ⟨σ1, s1, e1⟩ := h1.defs
    obtain ⟨σ2, s2, e2⟩ := h2.defs
    have c1 : ∀ p ∈ r1, (if p.1 < k1 then σ1 p.1 else σ2 p.1) = σ1 p.1 := fun p hp => if_pos (h1.rng p hp).2
    have c2 : ∀ p ∈ r2, (if p.1 < k1 then σ1 p.1 else σ2 p.1) = σ2 p.1 := fun p hp => if_neg (by have := (h2.rng p hp).1; omega)
    refine ⟨fun n => if n < k1 then σ1 n else σ2 n, fun p hp => ?_, fun φ => ?_⟩
    · beta_reduce
      rcases List.mem_append.1 hp with hp | hp
      · rw [c1 p hp]; exact (s1 p hp).trans Finset.subset_union_left
      · rw [c2 p hp]; exact (s2 p hp).trans Finset.subset_union_right
    · rw [holds_append, e1, e2]
      constructor
      · rintro ⟨a, b⟩ p hp
        rcases List.mem_append.1 hp with hp | hp
        · beta_reduce; rw [c1 p hp]; exact a p hp
        · beta_reduce; rw [c2 p hp]; exact b p hp
      · intro h
        refine ⟨fun p hp => ?_, fun p hp => ?_⟩
        · have := h p (List.mem_append_left _ hp); beta_reduce at this; rwa [c1 p hp] at this
        · have := h p (List.mem_append_right _ hp); beta_reduce at this; rwa [c2 p hp] at this
  · have e1 := h1.vs
    have e2 := h2.vs
    have a1 : resV (r1 ++ r2) = resV r1 ∪ resV r2 := by ext n; simp [mem_resV, or_and_right, exists_or]
    have a2 : newV (r1 ++ r2) = newV r1 ∪ newV r2 := by ext n; simp [mem_newV, or_and_right, exists_or]
    rw [a1, a2]
    calc V1' ∪ V2' ∪ (resV r1 ∪ resV r2) = (V1' ∪ resV r1) ∪ (V2' ∪ resV r2) := by ext n; simp; tauto
      _ = _ := by rw [e1, e2]; ext n; simp; tauto

theorem Defs.weaken {k k0 k' k1 : Nat} {V V' : Finset Nat} {r : List (Nat × Tm)} (h : Defs k k' V V' r) (h0 : k0 ≤ k) (h1 : k' ≤ k1) : Defs k0 k1 V V' r :=
  ⟨by have := h.le; omega, fun p hp => by have := h.rng p hp; omega, h.defs, h.vs⟩

theorem gsub_app (φ : Nat → GTm) (as : List Tm) : (gsub φ (.app as)).1 = .app (as.map fun t => (gsub φ t).1) := by
  simp [gsub]

mutual
theorem flat_spec : ∀ (t : Tm) (k : Nat), Defs k (flat t k).2.2 (vars t) (vars (flat t k).1) (flat t k).2.1 ∧
    ∀ φ, Holds φ (flat t k).2.1 → gsub φ (flat t k).1 = gsub φ t
  | .var n, k => ⟨Defs.nil (le_refl k) _, fun φ _ => rfl⟩
  | .con c, k => by
    simp only [flat]
    refine ⟨⟨by omega, by simp, ⟨fun _ => .con c, by simp, fun φ => by simp [Holds]⟩, ?_⟩, fun φ h => ?_⟩
    · ext n; simp [mem_resV, mem_newV, eq_comm]
    · exact h _ (List.mem_singleton.2 rfl)
  | .app [], k => by
    simp only [flat]
    refine ⟨⟨by omega, by simp, ⟨fun _ => .app [], by simp, fun φ => by simp [Holds]⟩, ?_⟩, fun φ h => ?_⟩
    · ext n; simp [mem_resV, mem_newV, eq_comm, varsL]
    · exact h _ (List.mem_singleton.2 rfl)
  | .app (g :: as), k => by
    obtain ⟨D, e⟩ := flatL_spec as (k + 1)
    simp only [flat]
    set r := flatL as (k + 1) with hr
    have hv : ∀ φ, Holds φ r.2.1 → gsub φ (.app (g :: r.1)) = gsub φ (.app (g :: as)) := fun φ h => by
      apply Subtype.ext
      rw [gsub_app, gsub_app]
      simp only [List.map_cons]
      rw [e φ h]
    refine ⟨⟨by have := D.le; omega, fun p hp => ?_, ?_, ?_⟩, fun φ h => ?_⟩
    · rcases List.mem_append.1 hp with hp | hp
      · have := D.rng p hp; omega
      · have := D.le
        rw [List.mem_singleton] at hp; subst hp
        exact ⟨le_refl _, by omega⟩
    · obtain ⟨σ, s, es⟩ := D.defs
      have c1 : ∀ p ∈ r.2.1, (if p.1 = k then .app (g :: as) else σ p.1) = σ p.1 := fun p hp => if_neg (by have := D.rng p hp; omega)
      refine ⟨fun n => if n = k then .app (g :: as) else σ n, fun p hp => ?_, fun φ => ?_⟩
      · rcases List.mem_append.1 hp with hp | hp
        · beta_reduce; rw [c1 p hp]
          refine (s p hp).trans ?_
          simp [vars, varsL]
        · rw [List.mem_singleton] at hp; subst hp; simp
      · rw [holds_append]
        constructor
        · rintro ⟨h1, h2⟩ p hp
          rcases List.mem_append.1 hp with hp | hp
          · beta_reduce; rw [c1 p hp]; exact (es φ).1 h1 p hp
          · rw [List.mem_singleton] at hp; subst hp
            simp only [if_true]
            rw [← hv φ h1]
            exact h2 _ (List.mem_singleton.2 rfl)
        · intro h
          have h1 : Holds φ r.2.1 := (es φ).2 fun p hp => by
            have := h p (List.mem_append_left _ hp); beta_reduce at this; rwa [c1 p hp] at this
          refine ⟨h1, fun p hp => ?_⟩
          rw [List.mem_singleton] at hp; subst hp
          have := h _ (List.mem_append_right _ (List.mem_singleton.2 rfl))
          simp only [if_true] at this
          rw [hv φ h1]; exact this
    · have := D.vs
      ext n
      have h1 := Finset.ext_iff.1 this n
      simp only [Finset.mem_union, mem_resV, mem_newV, List.mem_append, List.mem_singleton, or_and_right, exists_or, exists_eq_left,
        vars_var, Finset.mem_singleton, vars_app, varsL] at h1 ⊢
      constructor
      · rintro (h | h | h | h | h)
        · exact .inr (.inr h.symm)
        · rcases h1.1 (.inr h) with h | h
          · exact .inl (.inr h)
          · exact .inr (.inl h)
        · exact .inr (.inr h.symm)
        · exact .inl (.inl h)
        · rcases h1.1 (.inl h) with h | h
          · exact .inl (.inr h)
          · exact .inr (.inl h)
      · rintro ((h | h) | h | h)
        · exact .inr (.inr (.inr (.inl h)))
        · rcases h1.2 (.inl h) with h | h
          · exact .inr (.inr (.inr (.inr h)))
          · exact .inr (.inl h)
        · rcases h1.2 (.inr h) with h | h
          · exact .inr (.inr (.inr (.inr h)))
          · exact .inr (.inl h)
        · exact .inl h.symm
    · rw [holds_append] at h
      rw [← hv φ h.1]
      exact h.2 _ (List.mem_singleton.2 rfl)
theorem flatL_spec : ∀ (as : List Tm) (k : Nat), Defs k (flatL as k).2.2 (varsL as) (varsL (flatL as k).1) (flatL as k).2.1 ∧
    ∀ φ, Holds φ (flatL as k).2.1 → (flatL as k).1.map (fun t => (gsub φ t).1) = as.map fun t => (gsub φ t).1
  | [], k => ⟨Defs.nil (le_refl k) _, fun φ _ => rfl⟩
  | a :: as, k => by
    obtain ⟨D1, e1⟩ := flat_spec a k
    obtain ⟨D2, e2⟩ := flatL_spec as (flat a k).2.2
    simp only [flatL]
    refine ⟨D1.append D2, fun φ h => ?_⟩
    rw [holds_append] at h
    simp only [List.map_cons]
    rw [e1 φ h.1, e2 φ h.2]
end

/-! ### Heads and bodies -/

theorem flat_app (g : Tm) (as : List Tm) (k : Nat) : unpack (.app (g :: as)) k = some ((flatL as (k + 1)).2.1, .app (g :: (flatL as (k + 1)).1), (flatL as (k + 1)).2.2) := by
  simp [unpack, flat]

/-- what `unpack` returns -/
theorem unpack_spec {t h : Tm} {k k' : Nat} {ts : List (Nat × Tm)} (e : unpack t k = some (ts, h, k')) :
    Defs k k' (vars t) (vars h) ts ∧ ∀ φ, Holds φ ts → gsub φ h = gsub φ t := by
  match t with
  | .var n => simp [unpack, flat] at e
  | .con c =>
    simp only [unpack, flat, List.getLast?_singleton, List.dropLast_singleton, Option.some.injEq, Prod.mk.injEq] at e
    obtain ⟨rfl, rfl, rfl⟩ := e
    exact ⟨Defs.nil (by omega) _, fun φ _ => rfl⟩
  | .app [] =>
    simp only [unpack, flat, List.getLast?_singleton, List.dropLast_singleton, Option.some.injEq, Prod.mk.injEq] at e
    obtain ⟨rfl, rfl, rfl⟩ := e
    exact ⟨Defs.nil (by omega) _, fun φ _ => rfl⟩
  | .app (g :: as) =>
    rw [flat_app, Option.some.injEq, Prod.mk.injEq, Prod.mk.injEq] at e
    obtain ⟨rfl, rfl, rfl⟩ := e
    obtain ⟨D, hv⟩ := flatL_spec as (k + 1)
    refine ⟨?_, fun φ h => ?_⟩
    · have := (Defs.nil (le_refl (k + 1)) (vars g)).append D
      exact this.weaken (by omega) (le_refl _)
    · apply Subtype.ext
      rw [gsub_app, gsub_app]
      simp only [List.map_cons]
      rw [hv φ h]

section
variable [CSemi W]

theorem bodyVars_eqns (ts : List (Nat × Tm)) : bodyVars (ts.map (eqn (W := W))) = resV ts := by
  ext n
  rw [mem_resV, mem_bodyVars]
  constructor
  · rintro ⟨l, hl, hn⟩
    obtain ⟨p, hp, rfl⟩ := List.mem_map.1 hl
    exact ⟨p, hp, by simpa [eqn, litVars, vars, varsL] using hn⟩
  · rintro ⟨p, hp, hn⟩
    exact ⟨eqn p, List.mem_map.2 ⟨p, hp, rfl⟩, by simpa [eqn, litVars, vars, varsL] using hn⟩

open Classical in
theorem bv_eqns {v : GTm → W} (hv : EqOK v) (φ : Nat → GTm) : ∀ ts : List (Nat × Tm), bv v φ (ts.map eqn) = if Holds φ ts then 1 else 0
  | [] => by simp [bv, Holds]
  | p :: ts => by
    rw [List.map_cons, bv_cons, bv_eqns hv φ ts]
    have h1 : lv v φ (eqn p) = if φ p.1 = gsub φ p.2 then 1 else 0 := by
      rw [← hv]
      show v (gsub φ _) = _
      exact congrArg v (Subtype.ext (by simp [gsub, eqItem]))
    rw [h1]
    by_cases a : φ p.1 = gsub φ p.2 <;> by_cases b : Holds φ ts <;> simp_all [Holds]

open Classical in
/-- what the loop over the body returns -/
theorem body_spec {v : GTm → W} (hv : EqOK v) : ∀ {b ys : List (Lit W)} {k k' : Nat}, body b k = some (ys, k') →
    ∃ res V', Defs k k' (bodyVars b) V' res ∧ bodyVars ys = V' ∪ resV res ∧ ∀ φ, bv v φ ys = if Holds φ res then bv v φ b else 0
  | [], ys, k, k', e => by
    simp only [body, Option.some.injEq, Prod.mk.injEq] at e
    obtain ⟨rfl, rfl⟩ := e
    exact ⟨[], _, Defs.nil (le_refl _) _, by ext n; simp [mem_resV], fun φ => by simp [Holds]⟩
  | .val w :: b, ys, k, k', e => by
    rw [body] at e
    split at e
    · simp at e
    · next r hr =>
      simp only [Option.some.injEq, Prod.mk.injEq] at e
      obtain ⟨rfl, rfl⟩ := e
      obtain ⟨res, V', D, h1, h2⟩ := body_spec hv hr
      refine ⟨res, V', ?_, ?_, fun φ => ?_⟩
      · have : bodyVars (Lit.val w :: b) = bodyVars b := by simp [bodyVars, litVars]
        rw [this]
        exact D.weaken (by omega) (le_refl _)
      · simp [bodyVars, litVars, h1]
      · rw [bv_cons, bv_cons, h2]; split <;> simp
  | .sub y :: b, ys, k, k', e => by
    rw [body] at e
    split at e
    · split at e
      · simp at e
      · next r hr =>
        simp only [Option.some.injEq, Prod.mk.injEq] at e
        obtain ⟨rfl, rfl⟩ := e
        obtain ⟨res, V', D, h1, h2⟩ := body_spec hv hr
        refine ⟨res, vars y ∪ V', ?_, ?_, fun φ => ?_⟩
        · exact (Defs.nil (le_refl k) (vars y)).append D
        · show litVars (Lit.sub y) ∪ _ = _
          rw [h1, Finset.union_assoc]; rfl
        · rw [bv_cons, bv_cons, h2]; split <;> simp
    · split at e
      · simp at e
      · next ts yy k1 hu =>
        split at e
        · simp at e
        · next r hr =>
          simp only [Option.some.injEq, Prod.mk.injEq] at e
          obtain ⟨rfl, rfl⟩ := e
          obtain ⟨res, V', D, h1, h2⟩ := body_spec hv hr
          obtain ⟨D1, hy⟩ := unpack_spec hu
          refine ⟨ts ++ res, vars yy ∪ V', D1.append D, ?_, fun φ => ?_⟩
          · rw [bodyVars_append, bodyVars_eqns]
            show resV ts ∪ (litVars (Lit.sub yy) ∪ bodyVars r.1) = _
            rw [h1]
            have a1 : resV (ts ++ res) = resV ts ∪ resV res := by ext n; simp [mem_resV, or_and_right, exists_or]
            rw [a1]
            ext n; simp [litVars]; tauto
          · rw [bv_append, bv_cons, bv_cons, bv_eqns hv, h2]
            by_cases a : Holds φ ts
            · have : lv v φ (.sub yy) = lv v φ (.sub y) := by simp only [lv]; rw [hy φ a]
              by_cases c : Holds φ res
              · simp [a, c, holds_append, this]
              · simp [a, c, holds_append]
            · simp [a, holds_append]

open Classical in
/-- a rule with definitions of new variables contributes what it does without them -/
theorem contrib_defs {r r' : WRule W} {v : GTm → W} {k k' : Nat} {V' : Finset Nat} {res : List (Nat × Tm)} (hr : ∀ n ∈ rvars r, n < k)
    (D : Defs k k' (rvars r) V' res) (hV : rvars r' = V' ∪ resV res)
    (h : ∀ φ, Holds φ res → gsub φ r'.head = gsub φ r.head) (hb : ∀ φ, bv v φ r'.body = if Holds φ res then bv v φ r.body else 0) (x : GTm) :
    contrib r' v x = contrib r v x := by
  obtain ⟨σ, hσ, hH⟩ := D.defs
  have hd : Disjoint (rvars r) (newV res) := by
    rw [Finset.disjoint_left]
    intro n h1 h2
    obtain ⟨p, hp, rfl⟩ := mem_newV.1 h2
    have := hr _ h1
    have := D.rng p hp
    omega
  rw [contrib_eq (hV.trans D.vs)]
  let G : Asg (rvars r) → W := fun a => if gsub (ext a) r.head = x then bv v (ext a) r.body else 0
  have key : ∀ c : Asg (rvars r ∪ newV res), (if gsub (ext c) r'.head = x then bv v (ext c) r'.body else 0) =
      (fun (a : Asg (rvars r)) (b : Asg (newV res)) => if b = (fun n => gsub (ext a) (σ n.1)) then G a else 0) (cut _ (ext c)) (cut _ (ext c)) := by
    intro c
    have ag : ∀ n ∈ rvars r, ext (cut (rvars r) (ext c)) n = ext c n := fun n hn => ext_cut hn
    have hG : G (cut _ (ext c)) = if gsub (ext c) r.head = x then bv v (ext c) r.body else 0 := by
      simp only [G]
      rw [gsub_congr (t := r.head) fun n hn => ag n (Finset.mem_union_left _ hn), bv_congr (b := r.body) fun n hn => ag n (Finset.mem_union_right _ hn)]
    have hS : (cut (newV res) (ext c) = fun n => gsub (ext (cut (rvars r) (ext c))) (σ n.1)) ↔ Holds (ext c) res := by
      rw [hH]
      constructor
      · intro e p hp
        have := congrFun e ⟨p.1, mem_newV.2 ⟨p, hp, rfl⟩⟩
        simp only [cut] at this
        rw [this]
        exact gsub_congr fun n hn => ag n (hσ p hp hn)
      · intro e
        funext n
        obtain ⟨p, hp, hn⟩ := mem_newV.1 n.2
        simp only [cut]
        rw [← hn, e p hp]
        exact (gsub_congr fun n hn => ag n (hσ p hp hn)).symm
    beta_reduce
    rw [hG, hb]
    by_cases a : Holds (ext c) res
    · rw [if_pos (hS.2 a), if_pos a, h _ a]
    · rw [if_neg (fun e => a (hS.1 e)), if_neg a]; simp
  rw [isum_congr key, isum_union hd fun (a : Asg (rvars r)) (b : Asg (newV res)) => if b = (fun n => gsub (ext a) (σ n.1)) then G a else 0]
  unfold contrib
  refine isum_congr fun a => ?_
  exact isum_single (show Asg (newV res) from fun n => gsub (ext a) (σ n.1)) fun _ => G a

/-- one rule -/
theorem rule_contrib {r r' : WRule W} {k k' : Nat} (e : rule r k = some (r', k')) (hr : ∀ n ∈ rvars r, n < k) {v : GTm → W} (hv : EqOK v) (x : GTm) :
    contrib r' v x = contrib r v x ∧ k ≤ k' := by
  unfold rule at e
  split at e
  · simp at e
  · next ts h k1 hu =>
    split at e
    · simp at e
    · next ys k2 hb =>
      simp only [Option.some.injEq, Prod.mk.injEq] at e
      obtain ⟨rfl, rfl⟩ := e
      obtain ⟨D1, h1⟩ := unpack_spec hu
      obtain ⟨res, V', D2, h2, h3⟩ := body_spec hv hb
      have D := D1.append D2
      refine ⟨contrib_defs hr D ?_ (fun φ hφ => h1 φ (holds_append.1 hφ).1) (fun φ => ?_) x, D.le⟩
      · show vars h ∪ bodyVars (ts.map eqn ++ ys) = _
        rw [bodyVars_append, bodyVars_eqns, h2]
        have a1 : resV (ts ++ res) = resV ts ∪ resV res := by ext n; simp [mem_resV, or_and_right, exists_or]
        rw [a1]
        ext n; simp; tauto
      · show bv v φ (ts.map eqn ++ ys) = _
        rw [bv_append, bv_eqns hv, h3]
        by_cases a : Holds φ ts <;> by_cases c : Holds φ res <;> simp [a, c, holds_append]

end

/-! ### Property C56 -/

/-- **The step operator is unchanged**, for all values of the items, if those of `=` are right; `k` is above the variables of
the program. -/
theorem C56_step [CSemi W] : ∀ {p q : List (WRule W)} {k k' : Nat}, normalize p k = some (q, k') → (∀ r ∈ p, ∀ n ∈ rvars r, n < k) →
    ∀ {v : GTm → W}, EqOK v → ∀ x, T q v x = T p v x
  | [], q, k, k', e, _, v, _, x => by
    simp only [normalize, Option.some.injEq, Prod.mk.injEq] at e
    obtain ⟨rfl, rfl⟩ := e; rfl
  | r :: p, q, k, k', e, hk, v, hv, x => by
    rw [normalize] at e
    split at e
    · simp at e
    · next r' k1 h1 =>
      split at e
      · simp at e
      · next q' k2 h2 =>
        simp only [Option.some.injEq, Prod.mk.injEq] at e
        obtain ⟨rfl, rfl⟩ := e
        obtain ⟨e1, hle⟩ := rule_contrib h1 (hk r (by simp)) hv x
        rw [T_cons, T_cons, e1, C56_step h2 (fun r hr n hn => lt_of_lt_of_le (hk r (List.mem_cons_of_mem _ hr) n hn) hle) hv]

/-- **The solutions are unchanged**, among those in which `=` has its values. -/
theorem C56_solutions [CSemi W] {p q : List (WRule W)} {k k' : Nat} (e : normalize p k = some (q, k')) (hk : ∀ r ∈ p, ∀ n ∈ rvars r, n < k)
    {d v : GTm → W} (hv : EqOK v) : Sol q d v ↔ Sol p d v := by
  unfold Sol
  refine forall_congr' fun x => ?_
  rw [C56_step e hk hv]

/-- a rule does not define items `a = b` -/
def NoEq (r : WRule W) : Prop := ∃ c as, r.head = .app (.con c :: as) ∧ c ≠ .str "="

theorem NoEq.ne {r : WRule W} (h : NoEq r) (φ : Nat → GTm) (a b : GTm) : gsub φ r.head ≠ eqItem a b := by
  obtain ⟨c, as, e, hc⟩ := h
  intro h'
  have := congrArg Subtype.val h'
  rw [e] at this
  simp only [gsub, eqItem, sub, subL, Tm.app.injEq, List.cons.injEq, Tm.con.injEq] at this
  exact hc this.1

theorem rule_noEq {r r' : WRule W} {k k' : Nat} (e : rule r k = some (r', k')) (h : NoEq r) : NoEq r' := by
  obtain ⟨c, as, hh, hc⟩ := h
  unfold rule at e
  rw [hh, flat_app] at e
  simp only at e
  split at e
  · simp at e
  · simp only [Option.some.injEq, Prod.mk.injEq] at e
    obtain ⟨rfl, rfl⟩ := e
    exact ⟨c, _, rfl, hc⟩

theorem normalize_noEq : ∀ {p q : List (WRule W)} {k k' : Nat}, normalize p k = some (q, k') → (∀ r ∈ p, NoEq r) → ∀ r ∈ q, NoEq r
  | [], q, k, k', e, _ => by
    simp only [normalize, Option.some.injEq, Prod.mk.injEq] at e
    obtain ⟨rfl, rfl⟩ := e; simp
  | r :: p, q, k, k', e, hp => by
    rw [normalize] at e
    split at e
    · simp at e
    · next r' k1 h1 =>
      split at e
      · simp at e
      · next q' k2 h2 =>
        simp only [Option.some.injEq, Prod.mk.injEq] at e
        obtain ⟨rfl, rfl⟩ := e
        intro s hs
        rcases List.mem_cons.1 hs with rfl | hs
        · exact rule_noEq h1 (hp r (by simp))
        · exact normalize_noEq h2 (fun r hr => hp r (List.mem_cons_of_mem _ hr)) s hs

theorem rounds_eqOK [CSemi W] {p : List (WRule W)} (h : ∀ r ∈ p, NoEq r) {d : GTm → W} (hd : EqOK d) (n : Nat) : EqOK (rounds p d (n + 1)) := by
  intro a b
  show d _ + T p _ _ = _
  have : T p (rounds p d n) (eqItem a b) = 0 := by
    refine List.sum_eq_zero fun w hw => ?_
    obtain ⟨r, hr, rfl⟩ := List.mem_map.1 hw
    exact contrib_zero fun θ => (h r hr).ne θ a b
  rw [this, add_zero]
  exact hd a b

/-- **Values are preserved**: if the data hold the values of `=` and no rule defines it, then naive evaluation of the normalized
program and of the original one have the same upper bounds on every item. -/
theorem C56_least [OSemi W] {p q : List (WRule W)} {k k' : Nat} (e : normalize p k = some (q, k')) (hk : ∀ r ∈ p, ∀ n ∈ rvars r, n < k)
    (hp : ∀ r ∈ p, NoEq r) {d : GTm → W} (hd : EqOK d) (y : GTm) (b : W) :
    (∀ n, rounds p d n y ≤ b) ↔ ∀ n, rounds q d n y ≤ b := by
  have h1 : ∀ n y, rounds p d n y ≤ rounds q d (n + 1) y := by
    intro n
    induction n with
    | zero => exact fun y => OSemi.zero_le' _
    | succ n ih =>
      intro y
      show d y + T p _ y ≤ d y + T q _ y
      rw [C56_step e hk (rounds_eqOK (normalize_noEq e hp) hd n)]
      exact OSemi.add_le (le_refl _) (T_mono ih p y)
  have h2 : ∀ n y, rounds q d n y ≤ rounds p d (n + 1) y := by
    intro n
    induction n with
    | zero => exact fun y => OSemi.zero_le' _
    | succ n ih =>
      intro y
      show d y + T q _ y ≤ d y + T p _ y
      rw [← C56_step e hk (rounds_eqOK hp hd n)]
      exact OSemi.add_le (le_refl _) (T_mono ih q y)
  exact ⟨fun h n => le_trans (h2 n y) (h _), fun h n => le_trans (h1 n y) (h _)⟩

/-! #### The normal form -/

theorem isVar_iff {t : Tm} : isVar t = true ↔ ∃ n, t = .var n := by cases t <;> simp [isVar]

theorem flat_iff {g : Tm} {as : List Tm} : Flat (.app (g :: as)) ↔ as.all isVar = true := by
  unfold Flat
  constructor
  · rintro ⟨as', e, h⟩
    simp only [Tm.app.injEq] at e
    subst e
    rw [List.all_eq_true]
    exact fun a ha => isVar_iff.2 (h a ha)
  · intro h
    exact ⟨g :: as, rfl, fun a ha => isVar_iff.1 (List.all_eq_true.1 h a ha)⟩

theorem isNF_iff {t : Tm} (ht : ∃ g as, t = .app (g :: as)) : isNF t = true ↔ Flat t ∨ Shallow t := by
  obtain ⟨g, as, rfl⟩ := ht
  unfold isNF
  split
  · next v rhs e =>
    simp only [Tm.app.injEq, List.cons.injEq] at e
    obtain ⟨rfl, rfl⟩ := e
    rw [Bool.and_eq_true, isVar_iff]
    constructor
    · rintro ⟨⟨n, rfl⟩, h⟩
      refine .inr ⟨n, rhs, rfl, ?_⟩
      unfold shallow at h
      split at h
      · exact .inr (.inr (flat_iff.2 h))
      · match rhs with
        | .var m => exact .inl ⟨m, rfl⟩
        | .con c => exact .inr (.inl ⟨c, rfl⟩)
        | .app [] => exact .inr (.inr ⟨[], rfl, by simp⟩)
        | .app (g :: as) => simp at *
    · rintro (h | ⟨n, u, e, h⟩)
      · rw [flat_iff] at h
        simp only [List.all_cons, Bool.and_eq_true, List.all_nil, and_true] at h
        obtain ⟨⟨n, rfl⟩, ⟨m, rfl⟩⟩ := And.intro (isVar_iff.1 h.1) (isVar_iff.1 h.2)
        exact ⟨⟨n, rfl⟩, rfl⟩
      · simp only [Tm.app.injEq, List.cons.injEq, true_and, and_true] at e
        obtain ⟨rfl, rfl⟩ := e
        refine ⟨⟨n, rfl⟩, ?_⟩
        rcases h with ⟨m, rfl⟩ | ⟨c, rfl⟩ | ⟨as, rfl, h⟩
        · rfl
        · rfl
        · cases as with
          | nil => rfl
          | cons g as => exact flat_iff.1 ⟨g :: as, rfl, h⟩
  · next g' as' hne e =>
    simp only [Tm.app.injEq, List.cons.injEq] at e
    obtain ⟨rfl, rfl⟩ := e
    rw [← flat_iff (g := g)]
    refine ⟨.inl, ?_⟩
    rintro (h | ⟨n, u, e, h⟩)
    · exact h
    · simp only [Tm.app.injEq, List.cons.injEq] at e
      exact (hne _ _ e.1 e.2).elim
  · next h1 h2 => exact (h2 _ _ rfl).elim

mutual
theorem flat_shape : ∀ (t : Tm) (k : Nat), (∃ n, (flat t k).1 = .var n) ∧ ∀ p ∈ (flat t k).2.1, (∃ c, p.2 = .con c) ∨ Flat p.2
  | .var n, k => by simp [flat]
  | .con c, k => by simp [flat]
  | .app [], k => by simp [flat]; exact ⟨[], rfl, by simp⟩
  | .app (g :: as), k => by
    obtain ⟨h1, h2⟩ := flatL_shape as (k + 1)
    simp only [flat]
    refine ⟨⟨k, rfl⟩, fun p hp => ?_⟩
    rcases List.mem_append.1 hp with hp | hp
    · exact h2 p hp
    · rw [List.mem_singleton] at hp; subst hp
      exact .inr ⟨_, rfl, h1⟩
theorem flatL_shape : ∀ (as : List Tm) (k : Nat), (∀ a ∈ (flatL as k).1, ∃ n, a = .var n) ∧ ∀ p ∈ (flatL as k).2.1, (∃ c, p.2 = .con c) ∨ Flat p.2
  | [], k => by simp [flatL]
  | a :: as, k => by
    obtain ⟨h1, h2⟩ := flat_shape a k
    obtain ⟨h3, h4⟩ := flatL_shape as (flat a k).2.2
    simp only [flatL]
    refine ⟨fun b hb => ?_, fun p hp => ?_⟩
    · rcases List.mem_cons.1 hb with rfl | hb
      · exact h1
      · exact h3 b hb
    · rcases List.mem_append.1 hp with hp | hp
      · exact h2 p hp
      · exact h4 p hp
end

theorem unpack_shape {g h : Tm} {as : List Tm} {k k' : Nat} {ts : List (Nat × Tm)} (e : unpack (.app (g :: as)) k = some (ts, h, k')) :
    Flat h ∧ ∀ p ∈ ts, ∀ t, Lit.sub t = (eqn p : Lit W) → Flat t ∨ Shallow t := by
  rw [flat_app, Option.some.injEq, Prod.mk.injEq, Prod.mk.injEq] at e
  obtain ⟨rfl, rfl, rfl⟩ := e
  obtain ⟨h1, h2⟩ := flatL_shape as (k + 1)
  refine ⟨⟨_, rfl, h1⟩, fun p hp t ht => ?_⟩
  simp only [eqn, Lit.sub.injEq] at ht
  subst ht
  exact .inr ⟨p.1, p.2, rfl, .inr (h2 p hp)⟩

theorem body_normal : ∀ {b ys : List (Lit W)} {k k' : Nat}, body b k = some (ys, k') → (∀ t, Lit.sub t ∈ b → ∃ g as, t = .app (g :: as)) →
    ∀ t, Lit.sub t ∈ ys → Flat t ∨ Shallow t
  | [], ys, k, k', e, _ => by
    simp only [body, Option.some.injEq, Prod.mk.injEq] at e
    obtain ⟨rfl, rfl⟩ := e; simp
  | .val w :: b, ys, k, k', e, hb => by
    rw [body] at e
    split at e
    · simp at e
    · next r hr =>
      simp only [Option.some.injEq, Prod.mk.injEq] at e
      obtain ⟨rfl, rfl⟩ := e
      intro t ht
      simp only [List.mem_cons, reduceCtorEq, false_or] at ht
      exact body_normal hr (fun t ht => hb t (List.mem_cons_of_mem _ ht)) t ht
  | .sub y :: b, ys, k, k', e, hb => by
    have hy := hb y (by simp)
    rw [body] at e
    split at e
    · next hn =>
      split at e
      · simp at e
      · next r hr =>
        simp only [Option.some.injEq, Prod.mk.injEq] at e
        obtain ⟨rfl, rfl⟩ := e
        intro t ht
        simp only [List.mem_cons, Lit.sub.injEq] at ht
        rcases ht with rfl | ht
        · exact (isNF_iff hy).1 hn
        · exact body_normal hr (fun t ht => hb t (List.mem_cons_of_mem _ ht)) t ht
    · split at e
      · simp at e
      · next ts yy k1 hu =>
        split at e
        · simp at e
        · next r hr =>
          simp only [Option.some.injEq, Prod.mk.injEq] at e
          obtain ⟨rfl, rfl⟩ := e
          obtain ⟨g, as, rfl⟩ := hy
          obtain ⟨h1, h2⟩ := unpack_shape (W := W) hu
          intro t ht
          simp only [List.mem_append, List.mem_map, List.mem_cons, Lit.sub.injEq] at ht
          rcases ht with ⟨p, hp, e⟩ | rfl | ht
          · exact h2 p hp t e.symm
          · exact .inl h1
          · exact body_normal hr (fun t ht => hb t (List.mem_cons_of_mem _ ht)) t ht

/-- **The result is in normal form.** -/
theorem C56_normal : ∀ {p q : List (WRule W)} {k k' : Nat}, normalize p k = some (q, k') → (∀ r ∈ p, Terms r) → ∀ r ∈ q, Normal r
  | [], q, k, k', e, _ => by
    simp only [normalize, Option.some.injEq, Prod.mk.injEq] at e
    obtain ⟨rfl, rfl⟩ := e; simp
  | r :: p, q, k, k', e, hp => by
    rw [normalize] at e
    split at e
    · simp at e
    · next r' k1 h1 =>
      split at e
      · simp at e
      · next q' k2 h2 =>
        simp only [Option.some.injEq, Prod.mk.injEq] at e
        obtain ⟨rfl, rfl⟩ := e
        intro s hs
        rcases List.mem_cons.1 hs with rfl | hs
        · obtain ⟨g, as, hh⟩ := (hp r (by simp)).head
          unfold rule at h1
          split at h1
          · simp at h1
          · next ts h k1 hu =>
            split at h1
            · simp at h1
            · next ys k2 hb =>
              simp only [Option.some.injEq, Prod.mk.injEq] at h1
              obtain ⟨rfl, rfl⟩ := h1
              rw [hh] at hu
              obtain ⟨a1, a2⟩ := unpack_shape (W := W) hu
              refine ⟨a1, fun t ht => ?_⟩
              simp only [List.mem_append, List.mem_map] at ht
              rcases ht with ⟨p, hp, e⟩ | ht
              · exact a2 p hp t e.symm
              · exact body_normal hb (hp r (by simp)).body t ht
        · exact C56_normal h2 (fun r hr => hp r (List.mem_cons_of_mem _ hr)) s hs

theorem flatL_vars : ∀ {as : List Tm} (k : Nat), (∀ a ∈ as, ∃ n, a = .var n) → flatL as k = (as, [], k)
  | [], k, _ => rfl
  | a :: as, k, h => by
    obtain ⟨n, rfl⟩ := h a (by simp)
    simp only [flatL, flat]
    rw [flatL_vars k fun b hb => h b (List.mem_cons_of_mem _ hb)]
    rfl

theorem unpack_flat {t : Tm} (h : Flat t) (k : Nat) : ∃ k', unpack t k = some ([], t, k') := by
  obtain ⟨as, rfl, h⟩ := h
  cases as with
  | nil => exact ⟨k + 1, by simp [unpack, flat]⟩
  | cons g as => rw [flat_app, flatL_vars (as := as) _ h]; exact ⟨_, rfl⟩

theorem body_fix : ∀ {b : List (Lit W)} (k : Nat), (∀ t, Lit.sub t ∈ b → Flat t ∨ Shallow t) → ∃ k', body b k = some (b, k')
  | [], k, _ => ⟨k, rfl⟩
  | .val w :: b, k, h => by
    obtain ⟨k', e⟩ := body_fix (k + 1) fun t ht => h t (List.mem_cons_of_mem _ ht)
    exact ⟨k', by rw [body, e]⟩
  | .sub y :: b, k, h => by
    rw [body]
    by_cases hn : isNF y = true
    · obtain ⟨k', e⟩ := body_fix k fun t ht => h t (List.mem_cons_of_mem _ ht)
      exact ⟨k', by rw [if_pos hn, e]⟩
    · have hf : Flat y := by
        rcases h y (by simp) with hf | ⟨n, u, rfl, hu⟩
        · exact hf
        · exact (hn ((isNF_iff ⟨_, _, rfl⟩).2 (.inr ⟨n, u, rfl, hu⟩))).elim
      obtain ⟨k1, e1⟩ := unpack_flat hf k
      obtain ⟨k', e⟩ := body_fix k1 fun t ht => h t (List.mem_cons_of_mem _ ht)
      exact ⟨k', by rw [if_neg hn, e1]; simp only [e]; simp⟩

/-- **Rules in normal form are left as they are.** -/
theorem C56_unchanged : ∀ {q : List (WRule W)} (k : Nat), (∀ r ∈ q, Normal r) → ∃ k', normalize q k = some (q, k')
  | [], k, _ => ⟨k, rfl⟩
  | r :: q, k, h => by
    obtain ⟨k1, e1⟩ := unpack_flat (h r (by simp)).head k
    obtain ⟨k2, e2⟩ := body_fix k1 (h r (by simp)).body
    obtain ⟨k3, e3⟩ := C56_unchanged k2 fun r hr => h r (List.mem_cons_of_mem _ hr)
    refine ⟨k3, ?_⟩
    have : rule r k = some (r, k2) := by
      unfold rule
      rw [e1]; simp only [e2]; simp
    rw [normalize, this]; simp only [e3]

/-- **Normalizing twice is normalizing once.** -/
theorem C56_idempotent {p q : List (WRule W)} {k k' : Nat} (e : normalize p k = some (q, k')) (hp : ∀ r ∈ p, Terms r) (k2 : Nat) :
    ∃ k3, normalize q k2 = some (q, k3) := C56_unchanged k2 (C56_normal e hp)

theorem unpack_app (g : Tm) (as : List Tm) (k : Nat) : ∃ r, unpack (.app (g :: as)) k = some r := ⟨_, flat_app g as k⟩

theorem body_returns : ∀ {b : List (Lit W)} (k : Nat), (∀ t, Lit.sub t ∈ b → ∃ g as, t = .app (g :: as)) → ∃ r, body b k = some r
  | [], k, _ => ⟨_, rfl⟩
  | .val w :: b, k, h => by
    obtain ⟨r, e⟩ := body_returns (k + 1) fun t ht => h t (List.mem_cons_of_mem _ ht)
    rw [body, e]; exact ⟨_, rfl⟩
  | .sub y :: b, k, h => by
    rw [body]
    split
    · obtain ⟨r, e⟩ := body_returns k fun t ht => h t (List.mem_cons_of_mem _ ht)
      rw [e]; exact ⟨_, rfl⟩
    · obtain ⟨g, as, rfl⟩ := h y (by simp)
      obtain ⟨r, e⟩ := unpack_app g as k
      rw [e]
      obtain ⟨r', e'⟩ := body_returns r.2.2 fun t ht => h t (List.mem_cons_of_mem _ ht)
      simp only [e']
      exact ⟨_, rfl⟩

/-- **It returns** unless a head or a subgoal is not a term with a functor. -/
theorem C56_returns : ∀ {p : List (WRule W)} (k : Nat), (∀ r ∈ p, Terms r) → ∃ r, normalize p k = some r
  | [], k, _ => ⟨_, rfl⟩
  | r :: p, k, h => by
    obtain ⟨g, as, hh⟩ := (h r (by simp)).head
    obtain ⟨u, e⟩ := unpack_app g as k
    obtain ⟨w, e'⟩ := body_returns u.2.2 (h r (by simp)).body
    have : rule r k = some (⟨u.2.1, u.1.map eqn ++ w.1⟩, w.2) := by
      unfold rule
      rw [hh, e]; simp only [e']
    obtain ⟨z, e3⟩ := C56_returns w.2 fun r hr => h r (List.mem_cons_of_mem _ hr)
    rw [normalize, this]; simp only [e3]
    exact ⟨_, rfl⟩

/-! ### Examples -/

section Examples

abbrev tm (f : String) (as : List Tm) : Tm := .app (.con (.str f) :: as)

/-- the example of the docstring, `goal(W) += foo(X) * bar([X|Xs], W)`, with a constant -/
def demo : List (WRule TV) := [⟨tm "goal" [.var 0], [.val .t, .sub (tm "foo" [.var 1]), .sub (tm "bar" [tm "cons" [.var 1, .var 2], .var 0])]⟩,
  ⟨tm "f" [tm "s" [.con (.int 0)]], [.sub (tm "=" [tm "g" [.var 0], .var 1])]⟩]

theorem demo_run : normalize demo 3 = some ([⟨tm "goal" [.var 0], [.val .t, .sub (tm "foo" [.var 1]), eqn (6, tm "cons" [.var 1, .var 2]),
    .sub (tm "bar" [.var 6, .var 0])]⟩, ⟨tm "f" [.var 8], [eqn (9, .con (.int 0)), eqn (8, tm "s" [.var 9]), eqn (11, tm "g" [.var 0]),
    .sub (tm "=" [.var 11, .var 1])]⟩], 12) := by decide +kernel

theorem demo_terms : ∀ r ∈ demo, Terms r := by
  intro r hr
  simp only [demo, List.mem_cons, List.not_mem_nil, or_false] at hr
  rcases hr with rfl | rfl <;> refine ⟨⟨_, _, rfl⟩, fun t ht => ?_⟩ <;>
    simp only [List.mem_cons, Lit.sub.injEq, reduceCtorEq, List.not_mem_nil, or_false, false_or] at ht
  · rcases ht with rfl | rfl <;> exact ⟨_, _, rfl⟩
  · subst ht; exact ⟨_, _, rfl⟩

open Classical in
/-- the theorems apply to it -/
example : ∃ q k', normalize demo 3 = some (q, k') ∧ (∀ x, T q (fun z => if ∃ a, z = eqItem a a then TV.t else .f) x =
    T demo (fun z => if ∃ a, z = eqItem a a then TV.t else .f) x) ∧ (∀ r ∈ q, Normal r) ∧ ∃ k3, normalize q 20 = some (q, k3) := by
  refine ⟨_, _, demo_run, fun x => C56_step demo_run (by decide) (fun a b => ?_) x, C56_normal demo_run demo_terms, C56_idempotent demo_run demo_terms 20⟩
  by_cases h : a = b
  · subst h; rw [if_pos rfl]; exact if_pos ⟨a, rfl⟩
  · rw [if_neg h]
    refine if_neg ?_
    rintro ⟨c, e⟩
    have := congrArg Subtype.val e
    simp only [eqItem, Tm.app.injEq, List.cons.injEq, true_and, and_true] at this
    exact h (Subtype.ext (this.1.trans this.2.symm))

open Classical in
/-- so does naive evaluation, if `=` is given by the data -/
example (y : GTm) (b : TV) : (∀ n, rounds demo (fun z => if ∃ a, z = eqItem a a then TV.t else .f) n y ≤ b) ↔
    ∀ n, rounds (((normalize demo 3).getD ([], 0)).1) (fun z => if ∃ a, z = eqItem a a then TV.t else .f) n y ≤ b := by
  refine C56_least (k := 3) (k' := 12) (by rw [demo_run]; rfl) (by decide) (fun r hr => ?_) (fun a b => ?_) y b
  · simp only [demo, List.mem_cons, List.not_mem_nil, or_false] at hr
    rcases hr with rfl | rfl <;> exact ⟨_, _, rfl, by decide⟩
  by_cases h : a = b
  · subst h; rw [if_pos rfl]; exact if_pos ⟨a, rfl⟩
  · rw [if_neg h]
    refine if_neg ?_
    rintro ⟨c, e⟩
    have := congrArg Subtype.val e
    simp only [eqItem, Tm.app.injEq, List.cons.injEq, true_and, and_true] at this
    exact h (Subtype.ext (this.1.trans this.2.symm))

/-- **A variable subgoal makes it raise**: `goal += X * f(X)`. -/
theorem C56_variable_raises : normalize (W := TV) [⟨tm "goal" [], [.sub (.var 0), .sub (tm "f" [.var 0])]⟩] 1 = none := by decide +kernel

end Examples

end Norm
end Verif
