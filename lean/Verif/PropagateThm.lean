/-
Property C48: constraint propagation.
-/
import Verif.Propagate
import Verif.RuleEqThm

set_option linter.unusedSectionVars false
set_option linter.unusedSimpArgs false

namespace Verif
namespace Propagate
open Tm Subst

/-! ### Specification -/

/-- A valuation: every variable has a ground value. -/
def Ground (σ : Nat → Tm) : Prop := ∀ n, vars (σ n) = ∅

/-- An interpretation `I` (the set of true ground constraints) of the rules and built-in constraints: it is
closed under the rules and hooks, `$fail` is false, `=` is equality, and what evaluating a built-in constraint
yields holds wherever the constraint holds. -/
structure Model (E : Env) (I : Set Tm) : Prop where
  rules : ∀ r ∈ E.rules, ∀ θ, Ground θ → (∀ b ∈ r.2, b.sub θ ∈ I) → r.1.sub θ ∈ I
  nofail : FAIL ∉ I
  eq : ∀ a b, vars a = ∅ → vars b = ∅ → (eqT a b ∈ I ↔ a = b)
  blt : ∀ q σ, Ground σ → q.sub σ ∈ I → ∀ c ∈ E.blt q, c ≠ .no ∧
    ∀ eqs, c = .yes eqs → ∀ kv ∈ eqs, kv.1.sub σ = kv.2.sub σ
  hooks : ∀ q σ, Ground σ → q.sub σ ∈ I → ∀ x ∈ E.hooks q, x.sub σ ∈ I

/-- The solutions of a set of constraints. -/
def Solution (I : Set Tm) (D : List Tm) (σ : Nat → Tm) : Prop := Ground σ ∧ ∀ c ∈ D, c.sub σ ∈ I

/-- No variable of `L` occurs. -/
def Avoids (L : Set Nat) (t : Tm) : Prop := ∀ n ∈ vars t, n ∉ L

/-- The rules have their own variables `L`, and every variable of a head occurs in the body. -/
structure Apart (E : Env) (L : Set Nat) (D : List Tm) : Prop where
  body : ∀ r ∈ E.rules, ∀ n ∈ varsL r.2, n ∈ L
  head : ∀ r ∈ E.rules, ∀ n ∈ vars r.1, n ∈ varsL r.2
  inputs : ∀ c ∈ D, Avoids L c
  blt : ∀ q, Avoids L q → ∀ eqs, .yes eqs ∈ E.blt q → ∀ kv ∈ eqs, Avoids L kv.1 ∧ Avoids L kv.2
  hooks : ∀ q, Avoids L q → ∀ x ∈ E.hooks q, Avoids L x

/-- Consequences of the inputs under the rules and hooks: the least set containing the inputs, the instances
of heads whose bodies it contains, and what the hooks add for its elements. -/
inductive Der (E : Env) (D : List Tm) : Tm → Prop
  | input {c} : c ∈ D → Der E D c
  | rule {r θ} : r ∈ E.rules → (∀ b ∈ r.2, Der E D (b.sub θ)) → r.1.sub θ ≠ FAIL → Der E D (r.1.sub θ)
  | hook {c x} : Der E D c → x ∈ E.hooks c → Der E D x

/-! ### Outcomes -/

/-- `Q` holds of the state if the code goes on, `F` if it returns `None`. -/
def OutP (Q : St → Prop) (F : Prop) : Out → Prop
  | .ok st => Q st
  | .fail => F
  | _ => True

theorem OutP.bind {Q R : St → Prop} {F : Prop} {o : Out} {g : St → Out} (h : OutP Q F o)
    (hg : ∀ st, Q st → OutP R F (g st)) : OutP R F (o.bind g) := by
  cases o with
  | ok st => exact hg st h
  | fail => exact h
  | oof => exact h
  | err => exact h

theorem OutP.mono {Q R : St → Prop} {F G : Prop} {o : Out} (h : OutP Q F o) (hQ : ∀ st, Q st → R st)
    (hF : F → G) : OutP R G o := by
  cases o with
  | ok st => exact hQ st h
  | fail => exact hF h
  | oof => exact h
  | err => exact h

theorem loop_inv {α : Type} {Q : St → Prop} {F : Prop} {g : α → St → Out} {l : List α}
    (hg : ∀ a ∈ l, ∀ st, Q st → OutP Q F (g a st)) : ∀ st, Q st → OutP Q F (loop g l st) := by
  induction l with
  | nil => intro st h; exact h
  | cons a as ih =>
    intro st h
    exact (hg a List.mem_cons_self st h).bind (ih fun b hb => hg b (List.mem_cons_of_mem _ hb))

/-- What a loop establishes for one of its elements, if it goes on. -/
theorem loop_mem {α : Type} {Q : St → Prop} {g : α → St → Out} {l : List α} {R : St → Prop}
    (hg : ∀ a ∈ l, ∀ st, Q st → OutP Q True (g a st)) (hR : ∀ a ∈ l, ∀ st, Q st → R st → OutP R True (g a st))
    {a : α} (ha : a ∈ l) (h1 : ∀ st, Q st → OutP R True (g a st)) :
    ∀ st, Q st → OutP R True (loop g l st) := by
  induction l with
  | nil => cases ha
  | cons b bs ih =>
    intro st h
    have hb := hg b List.mem_cons_self st h
    by_cases hab : a ∈ bs
    · refine hb.bind (R := R) ?_
      exact ih (fun c hc => hg c (List.mem_cons_of_mem _ hc)) (fun c hc => hR c (List.mem_cons_of_mem _ hc)) hab
    · have hab : a = b := by
        rcases List.mem_cons.1 ha with h | h
        · exact h
        · exact absurd h hab
      subst hab
      have h2 : OutP (fun st => Q st ∧ R st) True (g a st) := by
        have h3 := h1 st h
        cases hga : g a st with
        | ok st' => rw [hga] at hb h3; exact ⟨hb, h3⟩
        | _ => trivial
      refine h2.bind (R := R) fun st' hst' => ?_
      have := loop_inv (Q := fun st => Q st ∧ R st) (F := True) (g := g) (l := bs) (fun c hc st h => by
        have h3 := hg c (List.mem_cons_of_mem _ hc) st h.1
        have h4 := hR c (List.mem_cons_of_mem _ hc) st h.1 h.2
        cases hgc : g c st with
        | ok st' => rw [hgc] at h3 h4; exact ⟨h3, h4⟩
        | _ => trivial) st' hst'
      exact this.mono (fun _ h => h.2) _root_.id

/-! ### `join` -/

section Join
variable {L : Set Nat} {f : Nat} {ord : List Tm → List Tm} (hord : ∀ l, (ord l).Perm l)
include hord

theorem join_inv {Q : St → Prop} {F : Prop} {lf : Heap → St → Out} (hQ : ∀ st, Q st → ∀ y ∈ st.chart, Avoids L y)
    {B : List Tm} (hB : ∀ b ∈ B, ∀ n ∈ vars b, n ∈ L)
    (hlf : ∀ s st, Q st → Subst.Sep L s → (∀ b ∈ B, ∀ n ∈ vars b, s n ≠ none) →
      (∀ τ, Ext s τ → ∀ b ∈ B, b.sub τ ∈ st.chart) →
      OutP (fun st' => Q st' ∧ st.chart ⊆ st'.chart) F (lf s st)) :
    ∀ qs s st, qs ⊆ B → Q st → Subst.Sep L s → (∀ b ∈ B, b ∈ qs ∨ ∀ n ∈ vars b, s n ≠ none) →
      (∀ τ, Ext s τ → ∀ b ∈ B, b ∈ qs ∨ b.sub τ ∈ st.chart) →
      OutP (fun st' => Q st' ∧ st.chart ⊆ st'.chart) F (join f ord lf qs s st) := by
  intro qs
  induction qs with
  | nil =>
    intro s st _ hq hs hb hc
    refine hlf s st hq hs (fun b hbB => ?_) fun τ hτ b hbB => ?_
    · rcases hb b hbB with h | h
      · cases h
      · exact h
    · rcases hc τ hτ b hbB with h | h
      · cases h
      · exact h
  | cons q qs ih =>
    intro s st hqs hq hs hb hc
    simp only [join]
    have hmem : ∀ x, x ∈ ord st.chart ↔ x ∈ st.chart := fun x => (hord st.chart).mem_iff
    have := loop_inv (Q := fun st' => Q st' ∧ st.chart ⊆ st'.chart) (F := F) (l := ord st.chart)
      (g := fun x st => match coverF f s q x with
        | none => .oof
        | some none => .ok st
        | some (some s') => join f ord lf qs s' st) (fun x hx st' hst' => ?_) st ⟨hq, fun _ h => h⟩
    · exact this
    · have hx' : x ∈ st'.chart := hst'.2 ((hmem x).1 hx)
      have hxL : ∀ n ∈ vars x, n ∉ L := hQ st' hst'.1 x hx'
      have hqB : q ∈ B := hqs List.mem_cons_self
      cases e : coverF f s q x with
      | none => simp [OutP]
      | some r =>
        have hspec := cover_spec' (hB q hqB) hs hxL e
        cases r with
        | none => simpa [OutP] using hst'
        | some s' =>
          obtain ⟨hs', hb1, hb2, hext⟩ := hspec.ok s' rfl
          have := ih s' st' (fun b h => hqs (List.mem_cons_of_mem _ h)) hst'.1 hs' (fun b hbB => ?_)
            fun τ hτ b hbB => ?_
          · simp only
            exact this.mono (fun st2 h2 => ⟨h2.1, fun y hy => h2.2 (hst'.2 hy)⟩) _root_.id
          · rcases hb b hbB with h | h
            · rcases List.mem_cons.1 h with rfl | h
              · exact .inr hb1
              · exact .inl h
            · exact .inr fun n hn => hb2 n (h n hn)
          · obtain ⟨h1, h2⟩ := (hext τ).1 hτ
            rcases hc τ h1 b hbB with h | h
            · rcases List.mem_cons.1 h with rfl | h
              · exact .inr (h2 ▸ hx')
              · exact .inl h
            · exact .inr (hst'.2 h)

/-- Every match is passed to the consumer. -/
theorem join_complete {Q R : St → Prop} {lf : Heap → St → Out} (hQ : ∀ st, Q st → ∀ y ∈ st.chart, Avoids L y)
    {B : List Tm} (hB : ∀ b ∈ B, ∀ n ∈ vars b, n ∈ L) {θ : Nat → Tm}
    (hlf : ∀ s st, Q st → Subst.Sep L s → (∀ b ∈ B, ∀ n ∈ vars b, s n ≠ none) →
      (∀ τ, Ext s τ → ∀ b ∈ B, b.sub τ ∈ st.chart) →
      OutP (fun st' => Q st' ∧ st.chart ⊆ st'.chart) True (lf s st))
    (hR : ∀ s st, Q st → R st → Subst.Sep L s → (∀ b ∈ B, ∀ n ∈ vars b, s n ≠ none) →
      (∀ τ, Ext s τ → ∀ b ∈ B, b.sub τ ∈ st.chart) →
      OutP R True (lf s st))
    (hfin : ∀ s st, Q st → Subst.Sep L s → (∀ b ∈ B, ∀ n ∈ vars b, s n ≠ none) →
      (∀ τ, Ext s τ → ∀ b ∈ B, b.sub τ ∈ st.chart) → Ext s θ → OutP R True (lf s st)) :
    ∀ qs s st, qs ⊆ B → Q st → Subst.Sep L s → (∀ b ∈ B, b ∈ qs ∨ ∀ n ∈ vars b, s n ≠ none) →
      (∀ τ, Ext s τ → ∀ b ∈ B, b ∈ qs ∨ b.sub τ ∈ st.chart) →
      Ext s θ → (∀ q ∈ qs, q.sub θ ∈ st.chart) →
      OutP R True (join f ord lf qs s st) := by
  intro qs
  induction qs with
  | nil =>
    intro s st _ hq hs hb hc hθ _
    refine hfin s st hq hs (fun b hbB => ?_) (fun τ hτ b hbB => ?_) hθ
    · rcases hb b hbB with h | h
      · cases h
      · exact h
    · rcases hc τ hτ b hbB with h | h
      · cases h
      · exact h
  | cons q qs ih =>
    intro s st hqs hq hs hb hc hθ hin
    simp only [join]
    have hmem : ∀ x, x ∈ ord st.chart ↔ x ∈ st.chart := fun x => (hord st.chart).mem_iff
    have hqB : q ∈ B := hqs List.mem_cons_self
    have hstep : ∀ x ∈ ord st.chart, ∀ st', (Q st' ∧ st.chart ⊆ st'.chart) → ∀ s', coverF f s q x = some (some s') →
        Subst.Sep L s' ∧ (∀ b ∈ B, b ∈ qs ∨ ∀ n ∈ vars b, s' n ≠ none) ∧
        (∀ τ, Ext s' τ → ∀ b ∈ B, b ∈ qs ∨ b.sub τ ∈ st'.chart) ∧ (∀ τ, Ext s' τ ↔ Ext s τ ∧ q.sub τ = x) := by
      intro x hx st' hst' s' e
      have hx' : x ∈ st'.chart := hst'.2 ((hmem x).1 hx)
      have hspec := cover_spec' (hB q hqB) hs (hQ st' hst'.1 x hx') e
      obtain ⟨hs', hb1, hb2, hext⟩ := hspec.ok s' rfl
      refine ⟨hs', fun b hbB => ?_, fun τ hτ b hbB => ?_, hext⟩
      · rcases hb b hbB with h | h
        · rcases List.mem_cons.1 h with rfl | h
          · exact .inr hb1
          · exact .inl h
        · exact .inr fun n hn => hb2 n (h n hn)
      · obtain ⟨h1, h2⟩ := (hext τ).1 hτ
        rcases hc τ h1 b hbB with h | h
        · rcases List.mem_cons.1 h with rfl | h
          · exact .inr (h2 ▸ hx')
          · exact .inl h
        · exact .inr (hst'.2 h)
    refine loop_mem (Q := fun st' => Q st' ∧ st.chart ⊆ st'.chart) (R := R) (a := q.sub θ)
      (fun x hx st' hst' => ?_) (fun x hx st' hst' hr => ?_)
      ((hmem _).2 (hin q List.mem_cons_self)) (fun st' hst' => ?_) st ⟨hq, fun _ h => h⟩
    · cases e : coverF f s q x with
      | none => simp [OutP]
      | some r =>
        cases r with
        | none => simpa [OutP] using hst'
        | some s' =>
          obtain ⟨h1, h2, h3, h4⟩ := hstep x hx st' hst' s' e
          have := join_inv hord (F := True) (f := f) hQ hB hlf qs s' st'
            (fun b h => hqs (List.mem_cons_of_mem _ h)) hst'.1 h1 h2 h3
          exact this.mono (fun st2 h2 => ⟨h2.1, fun y hy => h2.2 (hst'.2 hy)⟩) _root_.id
    · cases e : coverF f s q x with
      | none => simp [OutP]
      | some r =>
        cases r with
        | none => simpa [OutP] using hr
        | some s' =>
          obtain ⟨h1, h2, h3, h4⟩ := hstep x hx st' hst' s' e
          have := join_inv hord (F := True) (f := f) (Q := fun st => Q st ∧ R st) (lf := lf)
            (fun st h => hQ st h.1) hB (fun s st hq hs hb hc => by
              have a1 := hlf s st hq.1 hs hb hc
              have a2 := hR s st hq.1 hq.2 hs hb hc
              cases h : lf s st with
              | ok st' => rw [h] at a1 a2; exact ⟨⟨a1.1, a2⟩, a1.2⟩
              | _ => trivial) qs s' st'
            (fun b h => hqs (List.mem_cons_of_mem _ h)) ⟨hst'.1, hr⟩ h1 h2 h3
          exact this.mono (fun st2 h2 => h2.1.2) _root_.id
    · cases e : coverF f s q (q.sub θ) with
      | none => simp [OutP]
      | some r =>
        cases r with
        | none =>
          have hx' : q.sub θ ∈ st'.chart := hst'.2 (hin q List.mem_cons_self)
          have hspec := cover_spec' (hB q hqB) hs (hQ st' hst'.1 _ hx') e
          exact absurd rfl (hspec.fail rfl θ hθ)
        | some s' =>
          obtain ⟨h1, h2, h3, h4⟩ := hstep _ ((hmem _).2 (hin q List.mem_cons_self)) st' hst' s' e
          exact ih s' st' (fun b h => hqs (List.mem_cons_of_mem _ h)) hst'.1 h1 h2 h3 ((h4 θ).2 ⟨hθ, rfl⟩)
            fun q' hq' => hst'.2 (hin q' (List.mem_cons_of_mem _ hq'))

end Join

/-! ### Instances of heads -/

/-- The substitution recorded in a dict. -/
def toSub (s : Heap) (n : Nat) : Tm := (s n).getD (.var n)

theorem ext_toSub (s : Heap) : Ext s (toSub s) := fun n t h => by simp [toSub, h]

theorem call_eq {L : Set Nat} {s : Heap} (hs : Subst.Sep L s) : ∀ {f : Nat} {t t' : Tm}, callF s f t = some t' →
    t' = t.sub (toSub s) := by
  have key : ∀ {f : Nat} {t t' : Tm}, (∀ x ∈ vars t, s x = none) → Heap.derefF s f t = some t' → t' = t := by
    intro f t t' ht e
    obtain ⟨g, hg⟩ := deref_id t ht
    exact Heap.deref_unique e hg
  intro f
  induction f with
  | zero => intro t t' e; simp [callF, Heap.derefF] at e
  | succ f ih =>
    intro t t' e
    cases t with
    | var n =>
      simp only [callF, Heap.derefF] at e
      cases hn : s n with
      | none => simp [hn] at e; subst e; simp [toSub, hn]
      | some u =>
        simp only [hn] at e
        have := key (fun x hx => by
          by_contra hne
          obtain ⟨v, hv⟩ := Option.ne_none_iff_exists'.1 hne
          exact hs.rng n u hn x hx (hs.dom x v hv)) e
        simp [toSub, hn, this]
    | con c => simp [callF, Heap.derefF] at e; subst e; simp
    | app as =>
      obtain ⟨as', rfl, h⟩ := Heap.deref_app.1 e
      simp only [sub_app, Tm.app.injEq]
      clear e
      induction h with
      | nil => rfl
      | cons h1 _ ih2 => simp [ih h1, ih2]

theorem mem_vars_sub {t : Tm} {σ : Nat → Tm} {n : Nat} (h : n ∈ vars (t.sub σ)) : ∃ m ∈ vars t, n ∈ vars (σ m) := by
  induction t using ind with
  | hv m => exact ⟨m, by simp, by simpa using h⟩
  | hc c => simp at h
  | ha as ih =>
    simp only [sub_app, vars_app, mem_varsL, List.mem_map] at h
    obtain ⟨_, ⟨a, ha, rfl⟩, hn⟩ := h
    obtain ⟨m, hm, hn⟩ := ih a ha hn
    exact ⟨m, by simp only [vars_app, mem_varsL]; exact ⟨a, ha, hm⟩, hn⟩

theorem avoids_sub {L : Set Nat} {s : Heap} (hs : Subst.Sep L s) {t : Tm} (ht : ∀ n ∈ vars t, s n ≠ none) :
    Avoids L (t.sub (toSub s)) := by
  intro n hn
  obtain ⟨m, hm, hn⟩ := mem_vars_sub hn
  obtain ⟨u, hu⟩ := Option.ne_none_iff_exists'.1 (ht m hm)
  simp only [toSub, hu, Option.getD_some] at hn
  exact hs.rng m u hu n hn

theorem ground_comp {σ : Nat → Tm} (hσ : Ground σ) (τ : Nat → Tm) : Ground fun n => (τ n).sub σ := by
  intro n
  refine Finset.eq_empty_of_forall_notMem fun x hx => ?_
  obtain ⟨m, _, hm⟩ := mem_vars_sub hx
  simp [hσ m] at hm

theorem vars_sub_ground {σ : Nat → Tm} (hσ : Ground σ) (t : Tm) : vars (t.sub σ) = ∅ := by
  refine Finset.eq_empty_of_forall_notMem fun x hx => ?_
  obtain ⟨m, _, hm⟩ := mem_vars_sub hx
  simp [hσ m] at hm

/-! ### Replacement -/

theorem replaceInL_eq (X Y : Tm) (as : List Tm) : replaceIn.replaceInL X Y as = as.map (replaceIn X Y) := by
  induction as with
  | nil => rfl
  | cons a as ih => simp [replaceIn.replaceInL, ih]

theorem replaceIn_sub {X Y : Tm} {σ : Nat → Tm} (h : X.sub σ = Y.sub σ) (t : Tm) :
    (replaceIn X Y t).sub σ = t.sub σ := by
  induction t using ind with
  | hv n =>
    simp only [replaceIn]; split
    · next e => rw [e, h]
    · rfl
  | hc c =>
    simp only [replaceIn]; split
    · next e => rw [e, h]
    · rfl
  | ha as ih =>
    simp only [replaceIn]; split
    · next e => rw [e, h]
    · rw [replaceInL_eq]
      simp only [sub_app, List.map_map, Tm.app.injEq]
      exact List.map_congr_left fun a ha => ih a ha

theorem replaceIn_avoids {L : Set Nat} {X Y : Tm} (hY : Avoids L Y) (t : Tm) (ht : Avoids L t) :
    Avoids L (replaceIn X Y t) := by
  induction t using ind with
  | hv n => simp only [replaceIn]; split <;> assumption
  | hc c => simp only [replaceIn]; split <;> assumption
  | ha as ih =>
    simp only [replaceIn]; split
    · assumption
    · intro n hn
      rw [replaceInL_eq] at hn
      simp only [vars_app, mem_varsL, List.mem_map] at hn
      obtain ⟨_, ⟨a, ha, rfl⟩, hn⟩ := hn
      exact ih a ha (fun m hm => ht m (by simp only [vars_app, mem_varsL]; exact ⟨a, ha, hm⟩)) n hn

theorem eq_of_fnIs {d A X Y : Tm} (h : fnIs "=" d = true) (e : d = .app [A, X, Y]) : d = eqT X Y := by
  subst e
  cases A with
  | con c =>
    cases c with
    | str s => simp [fnIs] at h; simp [eqT, h]
    | int z => simp [fnIs] at h
  | _ => simp [fnIs] at h

@[simp] theorem eqT_sub (X Y : Tm) (σ : Nat → Tm) : (eqT X Y).sub σ = eqT (X.sub σ) (Y.sub σ) := by
  simp [eqT]

/-! ### The invariant -/

/-- Why a constraint may be marked as checked. -/
def CheckedOK (E : Env) (chart bindings : List Tm) (c : Tm) : Prop :=
  c ∈ bindings ∨ fnIs "ks" c ∨ fnIs "ws" c ∨
    ∃ eqs, .yes eqs ∈ E.blt c ∧ ∀ kv ∈ eqs, eqT kv.1 kv.2 ∈ chart

/-- A solution in an interpretation of the rules. -/
def Sol (E : Env) (I : Set Tm) (D : List Tm) (σ : Nat → Tm) : Prop := Model E I ∧ Solution I D σ

/-- The invariant while the constraint `cur` is being processed. -/
structure Inv (E : Env) (I : Set Tm) (L : Set Nat) (D : List Tm) (cur : Option Tm) (st : St) : Prop where
  avoid : ∀ x ∈ st.chart, Avoids L x
  sound : ∀ σ, Sol E I D σ → ∀ x ∈ st.chart, x.sub σ ∈ I
  agenda : st.agenda ⊆ st.chart
  bind : st.bindings ⊆ st.chart
  eqs : ∀ X Y, eqT X Y ∈ st.chart → eqT X Y ∈ st.agenda ∨ eqT X Y ∈ st.bindings ∨ cur = some (eqT X Y)
  beq : ∀ b ∈ st.bindings, ∃ X Y, b = eqT X Y
  checked : ∀ c ∈ st.checked, CheckedOK E st.chart st.bindings c

theorem mem_ins {x y : Tm} {l : List Tm} : y ∈ ins x l ↔ y ∈ l ∨ y = x := by
  unfold ins
  split
  · next h => exact ⟨.inl, fun h' => h'.elim _root_.id fun e => e ▸ h⟩
  · simp

theorem mem_foldl_ins {y : Tm} {l l' : List Tm} : y ∈ l.foldl (fun a x => ins x a) l' ↔ y ∈ l' ∨ y ∈ l := by
  induction l generalizing l' with
  | nil => simp
  | cons a l ih =>
    simp only [List.foldl_cons, ih, mem_ins, List.mem_cons]
    tauto

section Inv
variable {E : Env} {I : Set Tm} {L : Set Nat} {D : List Tm} {cur : Option Tm}

theorem CheckedOK.mono {c c' b b' : List Tm} (h1 : c ⊆ c') (h2 : b ⊆ b') {x : Tm} (h : CheckedOK E c b x) :
    CheckedOK E c' b' x := by
  rcases h with h | h | h | ⟨eqs, h, h'⟩
  · exact .inl (h2 h)
  · exact .inr (.inl h)
  · exact .inr (.inr (.inl h))
  · exact .inr (.inr (.inr ⟨eqs, h, fun kv hkv => h1 (h' kv hkv)⟩))

theorem mem_update {x y : Tm} {st : St} : y ∈ (update x st).chart ↔ y ∈ st.chart ∨ y = x := by
  unfold update
  split
  · next h => exact ⟨.inl, fun h' => h'.elim _root_.id fun e => e ▸ h⟩
  · simp

theorem update_sub (x : Tm) (st : St) : st.chart ⊆ (update x st).chart := fun _ h => mem_update.2 (.inl h)

theorem Inv.update {st : St} (h : Inv E I L D cur st) {x : Tm} (ha : Avoids L x)
    (hx : ∀ σ, Sol E I D σ → x.sub σ ∈ I) : Inv E I L D cur (update x st) := by
  unfold Propagate.update
  split
  · exact h
  · refine ⟨fun y hy => ?_, fun σ hσ y hy => ?_, fun y hy => ?_, fun y hy => ?_, fun X Y hy => ?_, h.beq, fun c hc => ?_⟩
    · rcases List.mem_append.1 hy with h1 | h1
      · exact h.avoid y h1
      · rw [List.mem_singleton.1 h1]; exact ha
    · rcases List.mem_append.1 hy with h1 | h1
      · exact h.sound σ hσ y h1
      · rw [List.mem_singleton.1 h1]; exact hx σ hσ
    · rcases mem_ins.1 hy with h1 | h1
      · exact List.mem_append_left _ (h.agenda h1)
      · exact List.mem_append_right _ (by simp [h1])
    · exact List.mem_append_left _ (h.bind hy)
    · rcases List.mem_append.1 hy with h1 | h1
      · rcases h.eqs X Y h1 with h2 | h2
        · exact .inl (mem_ins.2 (.inl h2))
        · exact .inr h2
      · exact .inl (mem_ins.2 (.inr (List.mem_singleton.1 h1)))
    · exact (h.checked c hc).mono (fun _ h => List.mem_append_left _ h) fun _ h => h

theorem leaf_inv (A : Apart E L D) {r : Tm × List Tm} (hr : r ∈ E.rules) {f : Nat} {s : Heap} {st : St}
    (h : Inv E I L D cur st) (hs : Subst.Sep L s) (hb : ∀ b ∈ r.2, ∀ n ∈ vars b, s n ≠ none)
    (hc : ∀ τ, Ext s τ → ∀ b ∈ r.2, b.sub τ ∈ st.chart) :
    OutP (fun st' => Inv E I L D cur st' ∧ st.chart ⊆ st'.chart) (∀ σ, ¬ Sol E I D σ) (leaf f r.1 s st) := by
  have hhead : ∀ σ, Sol E I D σ → (r.1.sub (toSub s)).sub σ ∈ I := by
    intro σ hσ
    rw [sub_sub]
    refine hσ.1.rules r hr _ (ground_comp hσ.2.1 _) fun b hb => ?_
    rw [← sub_sub]
    exact h.sound σ hσ _ (hc _ (ext_toSub s) b hb)
  unfold leaf
  cases e : callF s f r.1 with
  | none => trivial
  | some x =>
    have := call_eq hs e
    subst this
    simp only
    split
    · next e =>
      intro σ hσ
      have := hhead σ hσ
      rw [e] at this
      exact hσ.1.nofail (by simpa [FAIL] using this)
    · refine ⟨h.update (avoids_sub hs fun n hn => ?_) hhead, update_sub _ _⟩
      obtain ⟨b, hb', hn⟩ := mem_varsL.1 (A.head r hr n hn)
      exact hb b hb' n hn

theorem nil_sep (L : Set Nat) : Subst.Sep L nil :=
  ⟨fun n t h => by simp [nil] at h, fun n t h => by simp [nil] at h⟩

theorem foldl_update_inv {α : Type} {g : α → Tm} {l : List α} (hl : ∀ a ∈ l, Avoids L (g a) ∧
    ∀ σ, Sol E I D σ → (g a).sub σ ∈ I) : ∀ {st : St}, Inv E I L D cur st →
    Inv E I L D cur (l.foldl (fun st a => Propagate.update (g a) st) st) := by
  induction l with
  | nil => intro st h; exact h
  | cons a l ih =>
    intro st h
    exact ih (fun b hb => hl b (List.mem_cons_of_mem _ hb))
      (h.update (hl a List.mem_cons_self).1 (hl a List.mem_cons_self).2)

theorem foldl_update_sub {α : Type} (g : α → Tm) (l : List α) : ∀ st : St,
    st.chart ⊆ (l.foldl (fun st a => Propagate.update (g a) st) st).chart ∧
    ∀ a ∈ l, g a ∈ (l.foldl (fun st a => Propagate.update (g a) st) st).chart := by
  induction l with
  | nil => intro st; exact ⟨fun _ h => h, by simp⟩
  | cons a l ih =>
    intro st
    obtain ⟨h1, h2⟩ := ih (Propagate.update (g a) st)
    refine ⟨fun x hx => h1 (update_sub _ _ hx), fun b hb => ?_⟩
    rcases List.mem_cons.1 hb with rfl | hb
    · exact h1 (mem_update.2 (.inr rfl))
    · exact h2 b hb

theorem foldl_update_rest {α : Type} (g : α → Tm) (l : List α) : ∀ st : St,
    (l.foldl (fun st a => Propagate.update (g a) st) st).bindings = st.bindings ∧
    (l.foldl (fun st a => Propagate.update (g a) st) st).checked = st.checked := by
  induction l with
  | nil => intro st; exact ⟨rfl, rfl⟩
  | cons a l ih =>
    intro st
    obtain ⟨h1, h2⟩ := ih (Propagate.update (g a) st)
    constructor
    · rw [List.foldl_cons, h1]; unfold Propagate.update; split <;> rfl
    · rw [List.foldl_cons, h2]; unfold Propagate.update; split <;> rfl

theorem start_inv (A : Apart E L D) {f : Nat} {ord : List Tm → List Tm} (hord : ∀ l, (ord l).Perm l) :
    OutP (fun st => Inv E I L D none st ∧ D ⊆ st.chart) (∀ σ, ¬ Sol E I D σ) (start E f ord D) := by
  have h0 : Inv E I L D none ⟨[], [], [], []⟩ := ⟨by simp, by simp, by simp, by simp, by simp, by simp, by simp⟩
  have h1 := foldl_update_inv (E := E) (I := I) (cur := none) (g := fun x => x) (l := D) (fun c hc =>
    ⟨A.inputs c hc, fun σ hσ => hσ.2.2 c hc⟩) h0
  have h2 := foldl_update_sub (fun x => x) D ⟨[], [], [], []⟩
  refine loop_inv (Q := fun st => Inv E I L D none st ∧ D ⊆ st.chart) (fun r hr st hst => ?_) _ ⟨h1, h2.2⟩
  have := join_inv hord (f := f) (B := r.2) (Q := fun st => Inv E I L D none st) (F := ∀ σ, ¬ Sol E I D σ)
    (L := L) (fun st h => h.avoid) (fun b hb n hn => A.body r hr n (mem_varsL.2 ⟨b, hb, hn⟩))
    (fun s st h hs hb hc => leaf_inv A (f := f) hr h hs hb hc) r.2 nil st (fun _ h => h) hst.1 (nil_sep L)
    (fun b hb => .inl hb) fun τ _ b hb => .inl hb
  exact this.mono (fun st' h => ⟨h.1, fun x hx => h.2 (hst.2 hx)⟩) _root_.id

/-- A contradiction reported although the two sides may be made equal. -/
def Odd (d : Tm) : Prop :=
  ∃ X Y, d = eqT X Y ∧ isVar X = false ∧ isVar Y = false ∧ X ≠ Y ∧ ¬ (vars X = ∅ ∧ vars Y = ∅)

theorem checks_inv (A : Apart E L D) {d : Tm} : ∀ (cs : List Chk) {st : St}, Inv E I L D cur st →
    d ∈ st.chart → (∀ c ∈ cs, c = .wait ∨ c ∈ E.blt d ∨ (c = .yes [] ∧ (fnIs "ks" d ∨ fnIs "ws" d))) →
    OutP (fun st' => Inv E I L D cur st' ∧ st.chart ⊆ st'.chart) (∀ σ, ¬ Sol E I D σ) (checks d cs st) := by
  intro cs
  induction cs with
  | nil => intro st h _ _; exact ⟨h, fun _ h => h⟩
  | cons c cs ih =>
    intro st h hd hcs
    have hcs' := fun c hc => hcs c (List.mem_cons_of_mem _ hc)
    cases c with
    | wait => exact ih h hd hcs'
    | no =>
      intro σ hσ
      rcases hcs .no List.mem_cons_self with e | e | e
      · cases e
      · exact (hσ.1.blt d σ hσ.2.1 (h.sound σ hσ d hd) _ e).1 rfl
      · cases e.1
    | yes eqs =>
      simp only [checks]
      -- the updates first
      set st1 := eqs.foldl (fun st kv => Propagate.update (eqT kv.1 kv.2) st) { st with checked := ins d st.checked }
        with hst1
      have hkv : ∀ kv ∈ eqs, Avoids L (eqT kv.1 kv.2) ∧ ∀ σ, Sol E I D σ → (eqT kv.1 kv.2).sub σ ∈ I := by
        intro kv hkv
        rcases hcs _ List.mem_cons_self with e | e | e
        · cases e
        · refine ⟨fun n hn => ?_, fun σ hσ => ?_⟩
          · have := A.blt d (h.avoid d hd) eqs e kv hkv
            simp only [eqT, vars_app, varsL_cons, varsL_nil, vars_con, Finset.empty_union, Finset.union_empty,
              Finset.mem_union] at hn
            exact hn.elim (this.1 n) (this.2 n)
          · rw [eqT_sub, hσ.1.eq _ _ (vars_sub_ground hσ.2.1 _) (vars_sub_ground hσ.2.1 _)]
            exact (hσ.1.blt d σ hσ.2.1 (h.sound σ hσ d hd) _ e).2 eqs rfl kv hkv
        · rw [Chk.yes.injEq] at e
          rw [e.1] at hkv
          cases hkv
      -- with the old set of checked constraints
      have h2 : Inv E I L D cur { st1 with checked := st.checked } := by
        have e : ({ st1 with checked := st.checked } : St) =
            eqs.foldl (fun st kv => Propagate.update (eqT kv.1 kv.2) st) st := by
          have gen : ∀ (l : List (Tm × Tm)) (a : St) (ch : List Tm),
              ({ l.foldl (fun st kv => Propagate.update (eqT kv.1 kv.2) st) { a with checked := ch } with
                checked := a.checked } : St) = l.foldl (fun st kv => Propagate.update (eqT kv.1 kv.2) st) a := by
            intro l
            induction l with
            | nil => intro a ch; rfl
            | cons kv l ih =>
              intro a ch
              simp only [List.foldl_cons]
              have : Propagate.update (eqT kv.1 kv.2) { a with checked := ch }
                  = { Propagate.update (eqT kv.1 kv.2) a with checked := ch } := by
                unfold Propagate.update
                split <;> rfl
              rw [this]
              have e2 : a.checked = (Propagate.update (eqT kv.1 kv.2) a).checked := by
                unfold Propagate.update
                split <;> rfl
              rw [e2]
              exact ih _ ch
          exact gen eqs st _
        rw [e]
        exact foldl_update_inv hkv h
      have hsub := foldl_update_sub (fun kv : Tm × Tm => eqT kv.1 kv.2) eqs { st with checked := ins d st.checked }
      rw [← hst1] at hsub
      have hch : st1.checked = ins d st.checked :=
        (foldl_update_rest (fun kv : Tm × Tm => eqT kv.1 kv.2) eqs { st with checked := ins d st.checked }).2
      have h3 : Inv E I L D cur st1 := by
        refine ⟨h2.avoid, h2.sound, h2.agenda, h2.bind, h2.eqs, h2.beq, fun c hc => ?_⟩
        rw [hch] at hc
        rcases mem_ins.1 hc with hc | rfl
        · exact h2.checked c hc
        · rcases hcs _ List.mem_cons_self with e | e | e
          · cases e
          · exact .inr (.inr (.inr ⟨eqs, e, hsub.2⟩))
          · rcases e.2 with e | e
            · exact .inr (.inl e)
            · exact .inr (.inr (.inl e))
      exact (ih h3 (hsub.1 hd) hcs').mono (fun st' h' => ⟨h'.1, fun x hx => h'.2 (hsub.1 hx)⟩) _root_.id

theorem check_mem {chart : List Tm} {d : Tm} (hd : d ∈ chart) :
    ∀ c ∈ check E chart d, c = .wait ∨ c ∈ E.blt d ∨ (c = .yes [] ∧ (fnIs "ks" d ∨ fnIs "ws" d)) := by
  intro c hc
  unfold check at hc
  split at hc
  · next h =>
    exact .inr (.inr ⟨List.mem_singleton.1 hc, h⟩)
  · split at hc
    · exact .inr (.inl hc)
    · exact .inl (List.mem_singleton.1 hc)

theorem rewrite_inv {ord : List Tm → List Tm} (hord : ∀ l, (ord l).Perm l) {X Y : Tm} {st : St}
    (h : Inv E I L D cur st) (hXY : eqT X Y ∈ st.chart) :
    Inv E I L D cur (rewrite ord X Y st) ∧ st.chart ⊆ (rewrite ord X Y st).chart ∧
      (rewrite ord X Y st).bindings = st.bindings ∧ (rewrite ord X Y st).checked = st.checked := by
  unfold rewrite
  split
  · exact ⟨h, fun _ h => h, rfl, rfl⟩
  · have hav := h.avoid _ hXY
    have hX : Avoids L X := fun n hn => hav n (by simp [eqT, hn])
    have hY : Avoids L Y := fun n hn => hav n (by simp [eqT, hn])
    have hs : ∀ σ, Sol E I D σ → X.sub σ = Y.sub σ := by
      intro σ hσ
      have := h.sound σ hσ _ hXY
      rwa [eqT_sub, hσ.1.eq _ _ (vars_sub_ground hσ.2.1 _) (vars_sub_ground hσ.2.1 _)] at this
    have gen : ∀ l : List Tm, l ⊆ st.chart → ∀ st1 : St, Inv E I L D cur st1 → st.chart ⊆ st1.chart →
        st1.bindings = st.bindings → st1.checked = st.checked →
        let st2 := l.foldl (fun st x => match x with
          | .app as => if fnIs "=" (.app as) then st else
              Propagate.update (replaceIn Y X (.app as)) (Propagate.update (replaceIn X Y (.app as)) st)
          | _ => st) st1
        Inv E I L D cur st2 ∧ st.chart ⊆ st2.chart ∧ st2.bindings = st.bindings ∧ st2.checked = st.checked := by
      intro l
      induction l with
      | nil => intro _ st1 h1 h2 h3 h4; exact ⟨h1, h2, h3, h4⟩
      | cons x l ih =>
        intro hl st1 h1 h2 h3 h4
        simp only [List.foldl_cons]
        have hx := hl List.mem_cons_self
        refine ih (fun y hy => hl (List.mem_cons_of_mem _ hy)) _ ?_ ?_ ?_ ?_
        all_goals cases x with
          | app as =>
            simp only
            split
            · assumption
            · first
              | exact (h1.update (replaceIn_avoids hY _ (h.avoid _ hx)) fun σ hσ => by
                  rw [replaceIn_sub (hs σ hσ)]; exact h.sound σ hσ _ hx).update
                  (replaceIn_avoids hX _ (h.avoid _ hx)) fun σ hσ => by
                  rw [replaceIn_sub (hs σ hσ).symm]; exact h.sound σ hσ _ hx
              | exact fun y hy => update_sub _ _ (update_sub _ _ (h2 hy))
              | (unfold Propagate.update; split <;> split <;> simp_all)
          | var n => assumption
          | con c => assumption
    exact gen _ (fun y hy => (hord _).mem_iff.1 hy) st h (fun _ h => h) rfl rfl

theorem equality_inv {ord : List Tm → List Tm} (hord : ∀ l, (ord l).Perm l) {d : Tm} {st : St}
    (h : Inv E I L D (some d) st) (hd : d ∈ st.chart) :
    OutP (fun st' => Inv E I L D none st' ∧ st.chart ⊆ st'.chart) ((∀ σ, ¬ Sol E I D σ) ∨ Odd d)
      (equality E ord d st) := by
  unfold equality
  split
  · next he =>
    split
    · next A X Y =>
      have e := eq_of_fnIs he rfl
      split
      · next hc =>
        simp only [Bool.and_eq_true, Bool.not_eq_true', decide_eq_true_eq] at hc
        by_cases hg : vars X = ∅ ∧ vars Y = ∅
        · refine .inl fun σ hσ => hc.2 ?_
          have := h.sound σ hσ _ hd
          rw [e, eqT_sub, hσ.1.eq _ _ (vars_sub_ground hσ.2.1 _) (vars_sub_ground hσ.2.1 _),
            sub_of_ground hg.1, sub_of_ground hg.2] at this
          exact this
        · exact .inr ⟨X, Y, e, hc.1.1, hc.1.2, hc.2, hg⟩
      · rw [e] at hd h ⊢
        have hst1 : ∀ c, c = eqT X Y ∨ c ∈ st.checked ↔ c ∈ ins (eqT X Y) st.checked := fun c => by
          rw [mem_ins, or_comm]
        -- the rewriting, with the old set of checked constraints
        obtain ⟨r1, r2, r3, r4⟩ := rewrite_inv hord h hd
        have er : rewrite ord X Y { st with checked := ins (eqT X Y) st.checked }
            = { rewrite ord X Y st with checked := ins (eqT X Y) st.checked } := by
          unfold rewrite
          split
          · rfl
          · have gen : ∀ (l : List Tm) (st : St) (ch : List Tm), l.foldl (fun st x => match x with
                | .app as => if fnIs "=" (.app as) then st else
                    Propagate.update (replaceIn Y X (.app as)) (Propagate.update (replaceIn X Y (.app as)) st)
                | _ => st) { st with checked := ch } = { l.foldl (fun st x => match x with
                | .app as => if fnIs "=" (.app as) then st else
                    Propagate.update (replaceIn Y X (.app as)) (Propagate.update (replaceIn X Y (.app as)) st)
                | _ => st) st with checked := ch } := by
              have hu : ∀ x (st : St) ch, Propagate.update x { st with checked := ch }
                  = { Propagate.update x st with checked := ch } := by
                intro x st ch
                unfold Propagate.update
                split <;> rfl
              intro l
              induction l with
              | nil => intro st ch; rfl
              | cons x l ih =>
                intro st ch
                simp only [List.foldl_cons]
                cases x with
                | app as =>
                  simp only
                  split
                  · exact ih st ch
                  · have e1 := hu (replaceIn X Y (.app as)) st ch
                    have e2 := hu (replaceIn Y X (.app as)) (Propagate.update (replaceIn X Y (.app as)) st) ch
                    rw [e1, e2]; exact ih _ ch
                | var n => exact ih st ch
                | con c => exact ih st ch
            exact gen _ st _
        simp only [er]
        refine ⟨⟨r1.avoid, r1.sound, fun x hx => ?_, fun x hx => ?_, fun X' Y' hx => ?_, fun b hb => ?_, fun c hc => ?_⟩, r2⟩
        · simp only [readd, mem_foldl_ins, List.mem_filter] at hx
          rcases hx with hx | hx
          · exact r1.agenda hx
          · exact (hord _).mem_iff.1 hx.1
        · simp only [readd, r3, List.mem_append, List.mem_singleton] at hx
          rcases hx with hx | rfl
          · exact r2 (h.bind hx)
          · exact r2 hd
        · simp only [readd, mem_foldl_ins, r3, List.mem_append, List.mem_singleton] at hx ⊢
          rcases r1.eqs X' Y' hx with h1 | h1 | h1
          · exact .inl (.inl h1)
          · rw [r3] at h1; exact .inr (.inl (.inl h1))
          · exact .inr (.inl (.inr (Option.some.inj h1).symm))
        · simp only [readd, r3, List.mem_append, List.mem_singleton] at hb
          rcases hb with hb | rfl
          · exact h.beq b hb
          · exact ⟨X, Y, rfl⟩
        · simp only [readd] at hc ⊢
          rcases (hst1 c).2 hc with rfl | hc
          · exact .inl (by simp)
          · rw [← r4] at hc
            exact (r1.checked c hc).mono (fun _ h => h) fun _ h => List.mem_append_left _ h
    · trivial
  · next he =>
    refine ⟨⟨h.avoid, h.sound, h.agenda, h.bind, fun X Y hx => ?_, h.beq, h.checked⟩, fun _ h => h⟩
    rcases h.eqs X Y hx with h1 | h1 | h1
    · exact .inl h1
    · exact .inr (.inl h1)
    · rw [Option.some.inj h1] at he
      simp [eqT, fnIs, fnc] at he

theorem drive_inv (A : Apart E L D) {f : Nat} {ord : List Tm → List Tm} (hord : ∀ l, (ord l).Perm l)
    {d : Tm} {st : St} (h : Inv E I L D none st) (hd : d ∈ st.chart) :
    OutP (fun st' => Inv E I L D none st' ∧ st.chart ⊆ st'.chart) (∀ σ, ¬ Sol E I D σ) (drive E f ord d st) := by
  refine loop_inv (Q := fun st' => Inv E I L D none st' ∧ st.chart ⊆ st'.chart) (fun r hr st1 h1 => ?_) st
    ⟨h, fun _ h => h⟩
  refine loop_inv (Q := fun st' => Inv E I L D none st' ∧ st.chart ⊆ st'.chart) (fun k hk st2 h2 => ?_) st1 h1
  cases hb : r.2[k]? with
  | none => simpa [OutP] using h2
  | some b =>
    have hbB : b ∈ r.2 := List.mem_of_getElem? hb
    have hB : ∀ b ∈ r.2, ∀ n ∈ vars b, n ∈ L := fun b hb n hn => A.body r hr n (mem_varsL.2 ⟨b, hb, hn⟩)
    simp only
    cases e : coverF f nil b d with
    | none => trivial
    | some res =>
      cases res with
      | none => simpa [OutP] using h2
      | some s =>
        have hspec := cover_spec' (hB b hbB) (nil_sep L) (h.avoid d hd) e
        obtain ⟨hs, hb1, _, hext⟩ := hspec.ok s rfl
        have hmem : ∀ b' ∈ r.2, b' ∈ r.2.eraseIdx k ∨ b' = b := by
          intro b' hb'
          obtain ⟨j, hj⟩ := List.getElem?_of_mem hb'
          by_cases hjk : j = k
          · subst hjk; rw [hb] at hj; exact .inr (Option.some.inj hj).symm
          · exact .inl (List.mem_eraseIdx_iff_getElem?.2 ⟨j, hjk, hj⟩)
        have := join_inv hord (f := f) (B := r.2) (Q := fun st => Inv E I L D none st) (F := ∀ σ, ¬ Sol E I D σ)
          (L := L) (fun st h => h.avoid) hB
          (fun s st h hs hb hc => leaf_inv A (f := f) hr h hs hb hc) (r.2.eraseIdx k) s st2
          (fun x hx => List.mem_of_mem_eraseIdx hx) h2.1 hs
          (fun b' hb' => (hmem b' hb').imp _root_.id fun e => by rw [e]; exact hb1)
          fun τ hτ b' hb' => (hmem b' hb').imp _root_.id fun e => by
            rw [e, ((hext τ).1 hτ).2]; exact h2.2 hd
        exact this.mono (fun st' h' => ⟨h'.1, fun x hx => h'.2 (h2.2 hx)⟩) _root_.id

theorem body_inv (A : Apart E L D) {f : Nat} {ord : List Tm → List Tm} (hord : ∀ l, (ord l).Perm l)
    {d : Tm} {st : St} (h : Inv E I L D (some d) st) (hd : d ∈ st.chart) :
    OutP (fun st' => Inv E I L D none st' ∧ st.chart ⊆ st'.chart) ((∀ σ, ¬ Sol E I D σ) ∨ Odd d)
      (body E f ord d st) := by
  refine ((checks_inv A _ h hd (check_mem hd)).mono (fun _ h => h) .inl).bind fun st1 h1 => ?_
  refine (equality_inv hord h1.1 (h1.2 hd)).bind fun st2 h2 => ?_
  refine ((drive_inv A hord h2.1 (h2.2 (h1.2 hd))).mono (fun _ h => h) .inl).bind fun st3 h3 => ?_
  have hd3 := h3.2 (h2.2 (h1.2 hd))
  refine ⟨foldl_update_inv (g := _root_.id) (fun x hx => ⟨A.hooks d (h3.1.avoid d hd3) x hx, fun σ hσ => ?_⟩) h3.1,
    fun x hx => (foldl_update_sub _root_.id _ _).1 (h3.2 (h2.2 (h1.2 hx)))⟩
  exact hσ.1.hooks d σ hσ.2.1 (h3.1.sound σ hσ d hd3) x hx

theorem pop_inv {st : St} {d : Tm} {l₁ l₂ : List Tm} (h : Inv E I L D none st) (e : st.agenda = l₁ ++ d :: l₂) :
    Inv E I L D (some d) { st with agenda := l₁ ++ l₂ } ∧ d ∈ st.chart := by
  refine ⟨⟨h.avoid, h.sound, fun x hx => h.agenda ?_, h.bind, fun X Y hx => ?_, h.beq, h.checked⟩,
    h.agenda (by simp [e])⟩
  · rw [e]
    simp only [List.mem_append, List.mem_cons] at hx ⊢
    tauto
  · rcases h.eqs X Y hx with h1 | h1 | h1
    · rw [e] at h1
      simp only [List.mem_append, List.mem_cons] at h1 ⊢
      rcases h1 with h1 | h1 | h1
      · exact .inl (.inl h1)
      · exact .inr (.inr (by rw [h1]))
      · exact .inl (.inr h1)
    · exact .inr (.inl h1)
    · cases h1

theorem run_inv (A : Apart E L D) {st : St} (h : Run E D st) :
    Inv E I L D none st ∧ D ⊆ st.chart := by
  induction h with
  | @start f _ _ hord e =>
    have := start_inv (I := I) A hord (f := f)
    rw [e] at this
    exact this
  | @step f _ _ _ _ _ _ _ ea hord e ih =>
    obtain ⟨h1, h2⟩ := pop_inv ih.1 ea
    have := body_inv (I := I) A hord h1 h2 (f := f)
    rw [e] at this
    exact ⟨this.1, fun x hx => this.2 (ih.2 hx)⟩
end Inv

/-! ### Property C48 -/

/-- **C48, solutions.**  At any time the chart has exactly the solutions of the input, whatever the iteration
order: nothing is added (the inputs stay), nothing is lost. -/
theorem C48_solutions {E : Env} {I : Set Tm} {L : Set Nat} {D : List Tm} (A : Apart E L D) (M : Model E I) {st : St}
    (h : Run E D st) (σ : Nat → Tm) : Solution I st.chart σ ↔ Solution I D σ := by
  obtain ⟨h1, h2⟩ := run_inv (I := I) A h
  exact ⟨fun hσ => ⟨hσ.1, fun c hc => hσ.2 c (h2 hc)⟩, fun hσ => ⟨hσ.1, h1.sound σ ⟨M, hσ⟩⟩⟩

/-- **C48, failure.**  If propagation returns `None` then the input has no solution, unless it met an
equality between two different compound terms that are not both ground. -/
theorem C48_fail {E : Env} {I : Set Tm} {L : Set Nat} {D : List Tm} (A : Apart E L D) (M : Model E I)
    (h : Returns E D none) : (∀ σ, ¬ Solution I D σ) ∨ ∃ st, Run E D st ∧ ∃ d ∈ st.chart, Odd d := by
  cases h with
  | @startFail f _ hord e =>
    have := start_inv (I := I) A hord (f := f)
    rw [e] at this
    exact .inl fun σ hσ => this σ ⟨M, hσ⟩
  | @fail f _ _ _ _ _ hr ea hord e =>
    obtain ⟨h1, h2⟩ := pop_inv (run_inv (I := I) A hr).1 ea
    have := body_inv (I := I) A hord h1 h2 (f := f)
    rw [e] at this
    exact this.imp (fun h σ hσ => h σ ⟨M, hσ⟩) fun ho => ⟨_, hr, _, h2, ho⟩

/-- **C48, bindings.**  When propagation is complete, the recorded bindings are the equalities of the chart. -/
theorem C48_bindings {E : Env} {L : Set Nat} {D : List Tm} (A : Apart E L D) {st : St}
    (h : Returns E D (some st)) (b : Tm) : b ∈ st.bindings ↔ b ∈ st.chart ∧ ∃ X Y, b = eqT X Y := by
  cases h with
  | done hr ha =>
    obtain ⟨h1, _⟩ := run_inv (I := ∅) A hr
    refine ⟨fun hb => ⟨h1.bind hb, h1.beq b hb⟩, ?_⟩
    rintro ⟨hb, X, Y, rfl⟩
    rcases h1.eqs X Y hb with h2 | h2 | h2
    · rw [ha] at h2; cases h2
    · exact h2
    · cases h2

/-- **C48, checked constraints** other than `ks` and `ws` follow from the bindings, so they may be dropped,
when what evaluating a built-in constraint yields is equivalent to it. -/
theorem C48_checked {E : Env} {I : Set Tm} {L : Set Nat} {D : List Tm} (A : Apart E L D)
    (heq : ∀ a b, vars a = ∅ → vars b = ∅ → (eqT a b ∈ I ↔ a = b))
    (hex : ∀ q eqs σ, .yes eqs ∈ E.blt q → Ground σ → (∀ kv ∈ eqs, kv.1.sub σ = kv.2.sub σ) → q.sub σ ∈ I)
    {st : St} (h : Returns E D (some st)) {σ : Nat → Tm} (hσ : Ground σ) (hb : ∀ b ∈ st.bindings, b.sub σ ∈ I) :
    ∀ c ∈ st.checked, fnIs "ks" c = false → fnIs "ws" c = false → c.sub σ ∈ I := by
  intro c hc h1 h2
  have hbind := C48_bindings A h
  cases h with
  | done hr ha =>
    obtain ⟨hi, _⟩ := run_inv (I := I) A hr
    rcases hi.checked c hc with h3 | h3 | h3 | ⟨eqs, h3, h4⟩
    · exact hb c h3
    · rw [h1] at h3; cases h3
    · rw [h2] at h3; cases h3
    · refine hex c eqs σ h3 hσ fun kv hkv => ?_
      have := hb _ ((hbind _).2 ⟨h4 kv hkv, kv.1, kv.2, rfl⟩)
      rwa [eqT_sub, heq _ _ (vars_sub_ground hσ _) (vars_sub_ground hσ _)] at this

/-! ### Order independence -/

/-- Some consequence is contradictory: a rule derives `$fail`, or a built-in constraint is false. -/
def Contra (E : Env) (D : List Tm) : Prop :=
  (∃ r ∈ E.rules, ∃ θ, (∀ b ∈ r.2, Der E D (b.sub θ)) ∧ r.1.sub θ = FAIL) ∨
    ∃ x, Der E D x ∧ .no ∈ check E [x] x

/-- No consequence is an equality, and evaluating built-in constraints yields no equalities. -/
def Quiet (E : Env) (D : List Tm) : Prop :=
  ∀ x, Der E D x → fnIs "=" x = false ∧ ∀ eqs, .yes eqs ∈ check E [x] x → eqs = []

theorem check_congr {E : Env} {c c' : List Tm} {x : Tm} (h : x ∈ c) (h' : x ∈ c') : check E c x = check E c' x := by
  unfold check
  simp [h, h']

structure InvD (E : Env) (L : Set Nat) (D : List Tm) (cur : Option Tm) (st : St) : Prop where
  avoid : ∀ x ∈ st.chart, Avoids L x
  der : ∀ x ∈ st.chart, Der E D x
  agenda : st.agenda ⊆ st.chart
  closed : ∀ r ∈ E.rules, r.2 ≠ [] → ∀ θ, (∀ b ∈ r.2, b.sub θ ∈ st.chart ∧ b.sub θ ∉ st.agenda ∧ cur ≠ some (b.sub θ)) →
    r.1.sub θ ∈ st.chart ∧ r.1.sub θ ≠ FAIL
  chk : ∀ x ∈ st.chart, x ∉ st.agenda → cur ≠ some x → .no ∉ check E [x] x

/-- What was added since `st₀` is on the agenda. -/
def Since (st₀ st : St) : Prop := st₀.chart ⊆ st.chart ∧ ∀ x ∈ st.chart, x ∈ st₀.chart ∨ x ∈ st.agenda

section Order
variable {E : Env} {L : Set Nat} {D : List Tm} {cur : Option Tm}

theorem InvD.update {st : St} (h : InvD E L D cur st) {x : Tm} (ha : Avoids L x) (hx : Der E D x) :
    InvD E L D cur (update x st) := by
  unfold Propagate.update
  split
  · exact h
  · refine ⟨fun y hy => ?_, fun y hy => ?_, fun y hy => ?_, fun r hr hne θ hb => ?_, fun y hy hn hc => ?_⟩
    · rcases List.mem_append.1 hy with h1 | h1
      · exact h.avoid y h1
      · rw [List.mem_singleton.1 h1]; exact ha
    · rcases List.mem_append.1 hy with h1 | h1
      · exact h.der y h1
      · rw [List.mem_singleton.1 h1]; exact hx
    · rcases mem_ins.1 hy with h1 | h1
      · exact List.mem_append_left _ (h.agenda h1)
      · exact List.mem_append_right _ (by simp [h1])
    · have := h.closed r hr hne θ fun b hb' => by
        obtain ⟨h1, h2, h3⟩ := hb b hb'
        simp only [mem_ins, not_or] at h2
        rcases List.mem_append.1 h1 with h1 | h1
        · exact ⟨h1, h2.1, h3⟩
        · exact absurd (List.mem_singleton.1 h1) h2.2
      exact ⟨List.mem_append_left _ this.1, this.2⟩
    · simp only [mem_ins, not_or] at hn
      rcases List.mem_append.1 hy with h1 | h1
      · exact h.chk y h1 hn.1 hc
      · exact absurd (List.mem_singleton.1 h1) hn.2

theorem Since.update {st₀ st : St} (h : Since st₀ st) (x : Tm) : Since st₀ (update x st) := by
  refine ⟨fun y hy => update_sub _ _ (h.1 hy), fun y hy => ?_⟩
  unfold Propagate.update at hy ⊢
  split
  · next hx => rw [if_pos hx] at hy; exact h.2 y hy
  · next hx =>
    rw [if_neg hx] at hy
    rcases List.mem_append.1 hy with h1 | h1
    · exact (h.2 y h1).imp _root_.id fun h => mem_ins.2 (.inl h)
    · exact .inr (mem_ins.2 (.inr (List.mem_singleton.1 h1)))

theorem leafD (A : Apart E L D) {st₀ : St} {r : Tm × List Tm} (hr : r ∈ E.rules) {f : Nat} {s : Heap} {st : St}
    (h : InvD E L D cur st ∧ Since st₀ st) (hs : Subst.Sep L s) (hb : ∀ b ∈ r.2, ∀ n ∈ vars b, s n ≠ none)
    (hc : ∀ τ, Ext s τ → ∀ b ∈ r.2, b.sub τ ∈ st.chart) :
    OutP (fun st' => (InvD E L D cur st' ∧ Since st₀ st') ∧ st.chart ⊆ st'.chart) (Contra E D) (leaf f r.1 s st) := by
  unfold leaf
  cases e : callF s f r.1 with
  | none => trivial
  | some x =>
    have := call_eq hs e
    subst this
    have hd : ∀ b ∈ r.2, Der E D (b.sub (toSub s)) := fun b hb => h.1.der _ (hc _ (ext_toSub s) b hb)
    simp only
    split
    · next e => exact .inl ⟨r, hr, _, hd, e⟩
    · next e =>
      refine ⟨⟨h.1.update (avoids_sub hs fun n hn => ?_) (.rule hr hd e), h.2.update _⟩, update_sub _ _⟩
      obtain ⟨b, hb', hn⟩ := mem_varsL.1 (A.head r hr n hn)
      exact hb b hb' n hn

/-- What the consumer does for a match that agrees with `θ`. -/
theorem leaf_fin (A : Apart E L D) {r : Tm × List Tm} (hr : r ∈ E.rules) {f : Nat} {s : Heap} {st : St} {θ : Nat → Tm}
    (hs : Subst.Sep L s) (hb : ∀ b ∈ r.2, ∀ n ∈ vars b, s n ≠ none) (hθ : Ext s θ) :
    OutP (fun st' => r.1.sub θ ∈ st'.chart ∧ r.1.sub θ ≠ FAIL) True (leaf f r.1 s st) := by
  unfold leaf
  cases e : callF s f r.1 with
  | none => trivial
  | some x =>
    have := call_eq hs e
    subst this
    have : r.1.sub (toSub s) = r.1.sub θ := sub_congr fun n hn => by
      obtain ⟨b, hb', hn⟩ := mem_varsL.1 (A.head r hr n hn)
      obtain ⟨u, hu⟩ := Option.ne_none_iff_exists'.1 (hb b hb' n hn)
      rw [hθ n u hu]
      simp [toSub, hu]
    rw [this]
    simp only
    split
    · trivial
    · next e => exact ⟨mem_update.2 (.inr rfl), e⟩

theorem leaf_keep {f : Nat} {head : Tm} {s : Heap} {st : St} {x : Tm} (hx : x ∈ st.chart ∧ x ≠ FAIL) :
    OutP (fun st' => x ∈ st'.chart ∧ x ≠ FAIL) True (leaf f head s st) := by
  unfold leaf
  cases callF s f head with
  | none => trivial
  | some y =>
    simp only
    split
    · trivial
    · exact ⟨update_sub _ _ hx.1, hx.2⟩

theorem and_out {Q R : St → Prop} {F G : Prop} {o : Out} (h : OutP Q F o) (h' : OutP R G o) :
    OutP (fun st => Q st ∧ R st) (F ∧ G) o := by
  cases o with
  | ok st => exact ⟨h, h'⟩
  | fail => exact ⟨h, h'⟩
  | oof => trivial
  | err => trivial

theorem startD (A : Apart E L D) {f : Nat} {ord : List Tm → List Tm} (hord : ∀ l, (ord l).Perm l) :
    OutP (fun st => InvD E L D none st ∧ D ⊆ st.chart ∧ ∀ r ∈ E.rules, r.2 = [] → ∀ θ, r.1.sub θ ∈ st.chart ∧ r.1.sub θ ≠ FAIL)
      (Contra E D) (start E f ord D) := by
  set st₀ := D.foldl (fun st x => Propagate.update x st) ⟨[], [], [], []⟩ with hst₀
  have hD : D ⊆ st₀.chart := (foldl_update_sub (fun x => x) D ⟨[], [], [], []⟩).2
  have hsame : ∀ x, x ∈ st₀.chart → x ∈ D ∧ x ∈ st₀.agenda := by
    have gen : ∀ (l : List Tm) (st : St), (∀ x ∈ st.chart, x ∈ D ∧ x ∈ st.agenda) → l ⊆ D →
        ∀ x ∈ (l.foldl (fun st x => Propagate.update x st) st).chart, x ∈ D ∧
          x ∈ (l.foldl (fun st x => Propagate.update x st) st).agenda := by
      intro l
      induction l with
      | nil => intro st h _; exact h
      | cons a l ih =>
        intro st h hl
        refine ih _ (fun x hx => ?_) fun y hy => hl (List.mem_cons_of_mem _ hy)
        beta_reduce at hx ⊢
        unfold Propagate.update at hx ⊢
        split
        · next hx' => rw [if_pos hx'] at hx; exact h x hx
        · next hx' =>
          rw [if_neg hx'] at hx
          rcases List.mem_append.1 hx with h1 | h1
          · exact ⟨(h x h1).1, mem_ins.2 (.inl (h x h1).2)⟩
          · rw [List.mem_singleton.1 h1]; exact ⟨hl List.mem_cons_self, mem_ins.2 (.inr rfl)⟩
    exact gen D _ (by simp) fun _ h => h
  have hag : st₀.agenda ⊆ st₀.chart := by
    have gen : ∀ (l : List Tm) (st : St), st.agenda ⊆ st.chart →
        (l.foldl (fun st x => Propagate.update x st) st).agenda ⊆ (l.foldl (fun st x => Propagate.update x st) st).chart := by
      intro l
      induction l with
      | nil => intro st h; exact h
      | cons a l ih =>
        intro st h
        refine ih _ fun x hx => ?_
        beta_reduce at hx ⊢
        unfold Propagate.update at hx ⊢
        split
        · next hx' => rw [if_pos hx'] at hx; exact h hx
        · next hx' =>
          rw [if_neg hx'] at hx
          rcases mem_ins.1 hx with h1 | h1
          · exact List.mem_append_left _ (h h1)
          · exact List.mem_append_right _ (by simp [h1])
    exact gen D _ (by simp)
  have h0 : InvD E L D none st₀ := by
    refine ⟨fun x hx => A.inputs x (hsame x hx).1, fun x hx => .input (hsame x hx).1, hag, fun r hr hne θ hb => ?_,
      fun x hx hn => absurd (hsame x hx).2 hn⟩
    obtain ⟨b, hb'⟩ := List.exists_mem_of_ne_nil _ hne
    exact absurd (hsame _ (hb b hb').1).2 (hb b hb').2.1
  have hB : ∀ r ∈ E.rules, ∀ b ∈ r.2, ∀ n ∈ vars b, n ∈ L := fun r hr b hb n hn =>
    A.body r hr n (mem_varsL.2 ⟨b, hb, hn⟩)
  have hj : ∀ r ∈ E.rules, ∀ st, InvD E L D none st ∧ Since st₀ st →
      OutP (fun st' => (InvD E L D none st' ∧ Since st₀ st') ∧ st.chart ⊆ st'.chart) (Contra E D)
        (join f ord (leaf f r.1) r.2 nil st) := fun r hr st hst =>
    join_inv hord (f := f) (B := r.2) (Q := fun st => InvD E L D none st ∧ Since st₀ st) (F := Contra E D)
      (L := L) (fun st h => h.1.avoid) (hB r hr)
      (fun s st h hs hb hc => leafD A (f := f) hr h hs hb hc) r.2 nil st (fun _ h => h) hst (nil_sep L)
      (fun b hb => .inl hb) fun τ _ b hb => .inl hb
  have m1 := loop_inv (Q := fun st => InvD E L D none st ∧ Since st₀ st) (F := Contra E D) (l := E.rules)
    (g := fun r st => join f ord (leaf f r.1) r.2 nil st)
    (fun r hr st hst => (hj r hr st hst).mono (fun _ h => h.1) _root_.id) st₀ ⟨h0, fun _ h => h, fun _ h => .inl h⟩
  have m2 : ∀ r ∈ E.rules, r.2 = [] → ∀ θ, OutP (fun st => r.1.sub θ ∈ st.chart ∧ r.1.sub θ ≠ FAIL) True
      (start E f ord D) := by
    intro r hr hnil θ
    refine loop_mem (Q := fun st => InvD E L D none st ∧ Since st₀ st) (a := r) (fun r hr st hst =>
      (hj r hr st hst).mono (fun _ h => h.1) fun _ => trivial) (fun r' hr' st hst hR => ?_) hr (fun st hst => ?_) st₀
      ⟨h0, fun _ h => h, fun _ h => .inl h⟩
    · exact (hj r' hr' st hst).mono (fun st' h => ⟨h.2 hR.1, hR.2⟩) fun _ => trivial
    · rw [hnil]
      simp only [join]
      exact leaf_fin A hr (nil_sep L) (by simp [hnil]) fun n t h => by simp [nil] at h
  have m1' : OutP (fun st => InvD E L D none st ∧ Since st₀ st) (Contra E D) (start E f ord D) := m1
  cases e : start E f ord D with
  | ok st =>
    rw [e] at m1'
    refine ⟨m1'.1, fun x hx => m1'.2.1 (hD hx), fun r hr hnil θ => ?_⟩
    have := m2 r hr hnil θ
    rw [e] at this
    exact this
  | fail => rw [e] at m1'; exact m1'
  | oof => trivial
  | err => trivial

theorem checksD {d : Tm} (hQ : Quiet E D) : ∀ (cs : List Chk) {st : St}, InvD E L D cur st →
    (∀ c ∈ cs, c ∈ check E [d] d) → Der E D d →
    OutP (fun st' => InvD E L D cur st' ∧ st'.chart = st.chart ∧ st'.agenda = st.agenda ∧ .no ∉ cs) (Contra E D)
      (checks d cs st) := by
  intro cs
  induction cs with
  | nil => intro st h _ _; exact ⟨h, rfl, rfl, by simp⟩
  | cons c cs ih =>
    intro st h hcs hd
    have hcs' := fun c hc => hcs c (List.mem_cons_of_mem _ hc)
    cases c with
    | wait => exact (ih h hcs' hd).mono (fun st' h' => ⟨h'.1, h'.2.1, h'.2.2.1, by simp [h'.2.2.2]⟩) _root_.id
    | no => exact .inr ⟨d, hd, hcs _ List.mem_cons_self⟩
    | yes eqs =>
      have := (hQ d hd).2 eqs (hcs _ List.mem_cons_self)
      subst this
      simp only [checks, List.foldl_nil]
      have h1 : InvD E L D cur { st with checked := ins d st.checked } :=
        ⟨h.avoid, h.der, h.agenda, h.closed, h.chk⟩
      exact (ih h1 hcs' hd).mono (fun st' h' => ⟨h'.1, h'.2.1, h'.2.2.1, by simp [h'.2.2.2]⟩) _root_.id

theorem driveD (A : Apart E L D) {f : Nat} {ord : List Tm → List Tm} (hord : ∀ l, (ord l).Perm l)
    {d : Tm} {st : St} (h : InvD E L D (some d) st) (hd : d ∈ st.chart) (hno : .no ∉ check E [d] d) :
    OutP (fun st' => InvD E L D none st' ∧ st.chart ⊆ st'.chart) (Contra E D) (drive E f ord d st) := by
  have hB : ∀ r ∈ E.rules, ∀ b ∈ r.2, ∀ n ∈ vars b, n ∈ L := fun r hr b hb n hn =>
    A.body r hr n (mem_varsL.2 ⟨b, hb, hn⟩)
  have hmem : ∀ (r : Tm × List Tm) (k : Nat) b, r.2[k]? = some b → ∀ b' ∈ r.2, b' ∈ r.2.eraseIdx k ∨ b' = b := by
    intro r k b hb b' hb'
    obtain ⟨j, hj⟩ := List.getElem?_of_mem hb'
    by_cases hjk : j = k
    · subst hjk; rw [hb] at hj; exact .inr (Option.some.inj hj).symm
    · exact .inl (List.mem_eraseIdx_iff_getElem?.2 ⟨j, hjk, hj⟩)
  let Q : St → Prop := fun st' => InvD E L D (some d) st' ∧ Since st st'
  let g : Tm × List Tm → Nat → St → Out := fun r k st => match r.2[k]? with
    | none => .ok st
    | some b => match Subst.coverF f nil b d with
      | none => .oof
      | some none => .ok st
      | some (some s) => join f ord (leaf f r.1) (r.2.eraseIdx k) s st
  -- one position of one rule
  have hg : ∀ r ∈ E.rules, ∀ k st1, Q st1 → OutP (fun st' => Q st' ∧ st1.chart ⊆ st'.chart) (Contra E D) (g r k st1) := by
    intro r hr k st1 h1
    simp only [g]
    cases hb : r.2[k]? with
    | none => exact ⟨h1, fun _ h => h⟩
    | some b =>
      have hbB : b ∈ r.2 := List.mem_of_getElem? hb
      simp only
      cases e : coverF f nil b d with
      | none => trivial
      | some res =>
        cases res with
        | none => exact ⟨h1, fun _ h => h⟩
        | some s =>
          have hspec := cover_spec' (hB r hr b hbB) (nil_sep L) (h.avoid d hd) e
          obtain ⟨hs, hb1, _, hext⟩ := hspec.ok s rfl
          exact join_inv hord (f := f) (B := r.2) (Q := Q) (F := Contra E D)
            (L := L) (fun st h => h.1.avoid) (hB r hr)
            (fun s st h hs hb hc => leafD A (f := f) hr h hs hb hc) (r.2.eraseIdx k) s st1
            (fun x hx => List.mem_of_mem_eraseIdx hx) h1 hs
            (fun b' hb' => (hmem r k b hb b' hb').imp _root_.id fun e => by rw [e]; exact hb1)
            fun τ hτ b' hb' => (hmem r k b hb b' hb').imp _root_.id fun e => by
              rw [e, ((hext τ).1 hτ).2]; exact h1.2.1 hd
  have hl : ∀ r ∈ E.rules, ∀ st1, Q st1 → OutP Q (Contra E D) (loop (g r) (List.range r.2.length) st1) :=
    fun r hr st1 h1 => loop_inv (fun k _ st2 h2 => (hg r hr k st2 h2).mono (fun _ h => h.1) _root_.id) st1 h1
  have hkeep : ∀ x, x ≠ FAIL → ∀ r ∈ E.rules, ∀ st1, Q st1 → x ∈ st1.chart →
      OutP (fun st' => x ∈ st'.chart ∧ x ≠ FAIL) True (loop (g r) (List.range r.2.length) st1) := by
    intro x hx r hr st1 h1 hxs
    have := loop_inv (Q := fun st' => Q st' ∧ x ∈ st'.chart) (F := True) (g := g r) (l := List.range r.2.length)
      (fun k _ st2 h2 => (hg r hr k st2 h2.1).mono (fun _ h => ⟨h.1, h.2 h2.2⟩) fun _ => trivial) st1 ⟨h1, hxs⟩
    exact this.mono (fun _ h => ⟨h.2, hx⟩) _root_.id
  have m1 : OutP Q (Contra E D) (drive E f ord d st) :=
    loop_inv (Q := Q) (fun r hr st1 h1 => hl r hr st1 h1) st ⟨h, fun _ h => h, fun _ h => .inl h⟩
  -- matches that involve `d`
  have m2 : ∀ r ∈ E.rules, ∀ θ, (∀ b ∈ r.2, b.sub θ ∈ st.chart) → (∃ b ∈ r.2, b.sub θ = d) →
      OutP (fun st' => r.1.sub θ ∈ st'.chart ∧ r.1.sub θ ≠ FAIL) True (drive E f ord d st) := by
    intro r hr θ hall ⟨b, hb, hbd⟩
    obtain ⟨k, hk⟩ := List.getElem?_of_mem hb
    have hklt : k < r.2.length := (List.getElem?_eq_some_iff.1 hk).1
    refine loop_mem (Q := Q) (a := r) (g := fun r st => loop (g r) (List.range r.2.length) st)
      (fun r hr st1 h1 => (hl r hr st1 h1).mono (fun _ h => h) fun _ => trivial)
      (fun r' hr' st1 h1 hR => hkeep _ hR.2 r' hr' st1 h1 hR.1) hr (fun st1 h1 => ?_) st
      ⟨h, fun _ h => h, fun _ h => .inl h⟩
    refine loop_mem (Q := Q) (a := k) (fun k _ st1 h1 => (hg r hr k st1 h1).mono (fun _ h => h.1) fun _ => trivial)
      (fun k _ st1 h1 hR => (hg r hr k st1 h1).mono (fun _ h => ⟨h.2 hR.1, hR.2⟩) fun _ => trivial)
      (List.mem_range.2 hklt) (fun st2 h2 => ?_) st1 h1
    simp only [g, hk]
    cases e : coverF f nil b d with
    | none => trivial
    | some res =>
      have hspec := cover_spec' (hB r hr b hb) (nil_sep L) (h.avoid d hd) e
      cases res with
      | none => exact absurd hbd (hspec.fail rfl θ fun n t h => by simp [nil] at h)
      | some s =>
        obtain ⟨hs, hb1, _, hext⟩ := hspec.ok s rfl
        exact join_complete hord (f := f) (B := r.2) (Q := Q) (θ := θ)
          (R := fun st' => r.1.sub θ ∈ st'.chart ∧ r.1.sub θ ≠ FAIL)
          (L := L) (fun st h => h.1.avoid) (hB r hr)
          (fun s st h hs hb hc => (leafD A (f := f) hr h hs hb hc).mono (fun _ h => h) fun _ => trivial)
          (fun s st _ hR _ _ _ => leaf_keep hR)
          (fun s st _ hs hb _ hθ => leaf_fin A hr hs hb hθ) (r.2.eraseIdx k) s st2
          (fun x hx => List.mem_of_mem_eraseIdx hx) h2 hs
          (fun b' hb' => (hmem r k b hk b' hb').imp _root_.id fun e => by rw [e]; exact hb1)
          (fun τ hτ b' hb' => (hmem r k b hk b' hb').imp _root_.id fun e => by
            rw [e, ((hext τ).1 hτ).2]; exact h2.2.1 hd)
          ((hext θ).2 ⟨fun n t h => by simp [nil] at h, hbd⟩)
          (fun q hq => h2.2.1 (hall q (List.mem_of_mem_eraseIdx hq)))
  cases e : drive E f ord d st with
  | ok st' =>
    rw [e] at m1
    obtain ⟨i1, i2⟩ := m1
    refine ⟨⟨i1.avoid, i1.der, i1.agenda, fun r hr hne θ hb => ?_, fun x hx hn _ => ?_⟩, i2.1⟩
    · by_cases hex : ∃ b ∈ r.2, b.sub θ = d
      · have := m2 r hr θ (fun b hb' => ((i2.2 _ (hb b hb').1).resolve_right (hb b hb').2.1)) hex
        rw [e] at this
        exact this
      · refine i1.closed r hr hne θ fun b hb' => ⟨(hb b hb').1, (hb b hb').2.1, fun e => hex ⟨b, hb', ?_⟩⟩
        exact (Option.some.inj e).symm
    · by_cases hxd : x = d
      · subst hxd; exact hno
      · exact i1.chk x hx hn fun e => hxd (Option.some.inj e).symm
  | fail => rw [e] at m1; exact m1
  | oof => trivial
  | err => trivial

theorem foldl_updateD {l : List Tm} (hl : ∀ x ∈ l, Avoids L x ∧ Der E D x) : ∀ st : St, InvD E L D cur st →
    InvD E L D cur (l.foldl (fun st x => update x st) st) := by
  induction l with
  | nil => intro st h; exact h
  | cons x xs ih =>
    intro st h
    have := hl x List.mem_cons_self
    exact ih (fun y hy => hl y (List.mem_cons_of_mem _ hy)) _ (h.update this.1 this.2)

/-- What was added since `st₀` is on the agenda, and nothing was removed from the agenda. -/
def Grow (st₀ st : St) : Prop := Since st₀ st ∧ st₀.agenda ⊆ st.agenda

theorem Grow.refl (st : St) : Grow st st := ⟨⟨fun _ h => h, fun _ h => .inl h⟩, fun _ h => h⟩

theorem Grow.trans {a b c : St} (h : Grow a b) (h' : Grow b c) : Grow a c :=
  ⟨⟨fun _ hx => h'.1.1 (h.1.1 hx), fun x hx => (h'.1.2 x hx).elim
    (fun hx => (h.1.2 x hx).imp _root_.id fun hx => h'.2 hx) .inr⟩, fun _ hx => h'.2 (h.2 hx)⟩

theorem Grow.update {st₀ st : St} (h : Grow st₀ st) (x : Tm) : Grow st₀ (update x st) := by
  refine ⟨h.1.update x, fun y hy => ?_⟩
  unfold Propagate.update
  split
  · exact h.2 hy
  · exact mem_ins.2 (.inl (h.2 hy))

theorem foldl_grow {α : Type} (g : α → Tm) (l : List α) {st₀ : St} : ∀ st : St, Grow st₀ st →
    Grow st₀ (l.foldl (fun st a => update (g a) st) st) := by
  induction l with
  | nil => intro st h; exact h
  | cons x xs ih => intro st h; exact ih _ (h.update _)

theorem leaf_grow {f : Nat} {head : Tm} {s : Heap} {st₀ st : St} (h : Grow st₀ st) :
    OutP (Grow st₀) True (leaf f head s st) := by
  unfold leaf
  split
  · trivial
  · split
    · trivial
    · exact h.update _

theorem join_grow {f : Nat} {ord : List Tm → List Tm} {head : Tm} {st₀ : St} : ∀ (qs : List Tm) (s : Heap) (st : St),
    Grow st₀ st → OutP (Grow st₀) True (join f ord (leaf f head) qs s st)
  | [], s, st, h => by unfold join; exact leaf_grow h
  | q :: qs, s, st, h => by
    unfold join
    refine loop_inv (fun x _ st h => ?_) st h
    cases Subst.coverF f s q x with
    | none => trivial
    | some o => cases o with
      | none => exact h
      | some s' => exact join_grow qs s' st h

theorem drive_grow {f : Nat} {ord : List Tm → List Tm} {d : Tm} {st₀ st : St} (h : Grow st₀ st) :
    OutP (Grow st₀) True (drive E f ord d st) := by
  unfold drive
  refine loop_inv (fun r _ st h => loop_inv (fun k _ st h => ?_) st h) st h
  cases r.2[k]? with
  | none => exact h
  | some b =>
    show OutP _ _ (match Subst.coverF f nil b d with
      | none => Out.oof
      | some none => .ok st
      | some (some s) => join f ord (leaf f r.1) (r.2.eraseIdx k) s st)
    cases Subst.coverF f nil b d with
    | none => trivial
    | some o => cases o with
      | none => exact h
      | some s' => exact join_grow _ s' st h

theorem checks_grow {d : Tm} {st₀ : St} : ∀ (cs : List Chk) (st : St), Grow st₀ st → OutP (Grow st₀) True (checks d cs st)
  | [], st, h => h
  | .wait :: cs, st, h => by unfold checks; exact checks_grow cs st h
  | .no :: _, _, _ => trivial
  | .yes eqs :: cs, st, h => by
    unfold checks
    exact checks_grow cs _ (foldl_grow _ eqs _ h)

/-- What the hooks add for a processed constraint is in the chart. -/
def Hooked (E : Env) (st : St) : Prop := ∀ x ∈ st.chart, x ∉ st.agenda → E.hooks x ⊆ st.chart

theorem foldl_update_mem {l : List Tm} : ∀ st : St, l ⊆ (l.foldl (fun st x => update x st) st).chart := by
  induction l with
  | nil => intro st x hx; cases hx
  | cons y ys ih =>
    intro st x hx
    rcases List.mem_cons.1 hx with h | h
    · exact (foldl_update_sub _root_.id ys _).1 (mem_update.2 (.inr h))
    · exact ih _ h

theorem body_hooked (hQ : Quiet E D) {f : Nat} {ord : List Tm → List Tm} {d : Tm} {st st' : St} {l₁ l₂ : List Tm}
    (hd : Der E D d) (h : Hooked E st) (ea : st.agenda = l₁ ++ d :: l₂)
    (e : body E f ord d { st with agenda := l₁ ++ l₂ } = .ok st') : Hooked E st' := by
  have hg : OutP (fun st' => Grow { st with agenda := l₁ ++ l₂ } st' ∧ E.hooks d ⊆ st'.chart) True
      (body E f ord d { st with agenda := l₁ ++ l₂ }) := by
    unfold body
    refine (checks_grow _ _ (Grow.refl _)).bind fun st1 h1 => ?_
    have he : equality E ord d st1 = .ok st1 := by
      unfold equality
      rw [if_neg]
      rw [(hQ d hd).1]
      simp
    rw [he]
    refine (drive_grow h1).bind fun st3 h3 => ?_
    exact ⟨foldl_grow _root_.id _ _ h3, foldl_update_mem _⟩
  rw [e] at hg
  obtain ⟨⟨h1, h2⟩, h3⟩ := hg
  intro x hx hn
  rcases h1.2 x hx with hx | hx
  · by_cases hxd : x = d
    · rw [hxd]; exact h3
    · have := h x hx fun hxa => by
        rw [ea] at hxa
        simp only [List.mem_append, List.mem_cons] at hxa
        refine hn (h2 ?_)
        simp only [List.mem_append]
        tauto
      exact fun y hy => h1.1 (this hy)
  · exact absurd hx hn

theorem start_hooked {f : Nat} {ord : List Tm → List Tm} {st : St} (e : start E f ord D = .ok st) : Hooked E st := by
  have hg : OutP (Grow ⟨[], [], [], []⟩) True (start E f ord D) := by
    unfold start
    refine loop_inv (fun r _ st h => join_grow _ _ st h) _ (foldl_grow _root_.id D _ (Grow.refl _))
  rw [e] at hg
  intro x hx hn
  rcases hg.1.2 x hx with h | h
  · cases h
  · exact absurd h hn

theorem bodyD (A : Apart E L D) (hQ : Quiet E D) {f : Nat} {ord : List Tm → List Tm} (hord : ∀ l, (ord l).Perm l)
    {d : Tm} {st : St} (h : InvD E L D (some d) st) (hd : d ∈ st.chart) :
    OutP (fun st' => InvD E L D none st' ∧ st.chart ⊆ st'.chart) (Contra E D) (body E f ord d st) := by
  have hcc : check E st.chart d = check E [d] d := check_congr hd (by simp)
  unfold body
  rw [hcc]
  refine (checksD hQ _ h (fun c hc => hc) (h.der d hd)).bind fun st1 h1 => ?_
  have he : equality E ord d st1 = .ok st1 := by
    unfold equality
    rw [if_neg]
    rw [(hQ d (h.der d hd)).1]
    simp
  rw [he]
  have := driveD A hord (f := f) h1.1 (by rw [h1.2.1]; exact hd) h1.2.2.2
  rw [h1.2.1] at this
  refine this.bind fun st3 h3 => ?_
  have hd3 := h3.2 hd
  refine ⟨?_, fun x hx => (foldl_update_sub _root_.id _ _).1 (h3.2 hx)⟩
  exact foldl_updateD (fun x hx => ⟨A.hooks d (h3.1.avoid d hd3) x hx, .hook (h3.1.der d hd3) hx⟩) _ h3.1

theorem InvD.pop {st : St} {d : Tm} {l₁ l₂ : List Tm} (h1 : InvD E L D none st) (ea : st.agenda = l₁ ++ d :: l₂) :
    InvD E L D (some d) { st with agenda := l₁ ++ l₂ } := by
  have hag : ∀ x, x ∉ l₁ ++ l₂ → some d ≠ some x → x ∉ st.agenda := by
    intro x hx hne hxa
    rw [ea] at hxa
    simp only [List.mem_append, List.mem_cons] at hx hxa
    rcases hxa with h | h | h
    · exact hx (.inl h)
    · exact hne (by rw [h])
    · exact hx (.inr h)
  refine ⟨h1.avoid, h1.der, fun x hx => h1.agenda ?_, fun r hr hne θ hb => ?_, fun x hx hn hc => ?_⟩
  · rw [ea]
    simp only [List.mem_append, List.mem_cons] at hx ⊢
    tauto
  · exact h1.closed r hr hne θ fun b hb' => ⟨(hb b hb').1, hag _ (hb b hb').2.1 (hb b hb').2.2, by simp⟩
  · exact h1.chk x hx (hag x hn hc) (by simp)

theorem runD (A : Apart E L D) (hQ : Quiet E D) {st : St} (h : Run E D st) :
    InvD E L D none st ∧ D ⊆ st.chart ∧
      ∀ r ∈ E.rules, r.2 = [] → ∀ θ, r.1.sub θ ∈ st.chart ∧ r.1.sub θ ≠ FAIL := by
  induction h with
  | @start f _ _ hord e =>
    have := startD A hord (f := f)
    rw [e] at this
    exact this
  | @step f ord st st' d l₁ l₂ _ ea hord e ih =>
    obtain ⟨h1, h2, h3⟩ := ih
    have hd : d ∈ st.chart := h1.agenda (by simp [ea])
    have hp := h1.pop ea
    have := bodyD A hQ hord (f := f) hp hd
    rw [e] at this
    exact ⟨this.1, fun x hx => this.2 (h2 hx), fun r hr hnil θ => ⟨this.2 (h3 r hr hnil θ).1, (h3 r hr hnil θ).2⟩⟩

theorem run_hooked (A : Apart E L D) (hQ : Quiet E D) {st : St} (h : Run E D st) : Hooked E st := by
  induction h with
  | start _ e => exact start_hooked e
  | step hr ea _ e ih =>
    have h1 := (runD A hQ hr).1
    exact body_hooked hQ (h1.der _ (h1.agenda (by simp [ea]))) ih ea e

/-- **C48, result.**  Without equalities, propagation computes the consequences of the input: the chart it
returns consists of them, and it returns `None` exactly when they are contradictory. -/
theorem C48_result (A : Apart E L D) (hQ : Quiet E D) {o : Option St} (h : Returns E D o) :
    (∀ st, o = some st → ¬ Contra E D ∧ ∀ x, x ∈ st.chart ↔ Der E D x) ∧ (o = none → Contra E D) := by
  cases h with
  | @startFail f _ hord e =>
    have := startD A hord (f := f)
    rw [e] at this
    exact ⟨fun st e => (nomatch e), fun _ => this⟩
  | @fail f ord st d l₁ l₂ hr ea hord e =>
    refine ⟨fun st e => (nomatch e), fun _ => ?_⟩
    obtain ⟨h1, h2, h3⟩ := runD A hQ hr
    have hd : d ∈ st.chart := h1.agenda (by simp [ea])
    have hp := h1.pop ea
    have := bodyD A hQ hord (f := f) hp hd
    rw [e] at this
    exact this
  | @done st hr ha =>
    refine ⟨fun st' e => ?_, fun e => (nomatch e)⟩
    cases e
    obtain ⟨h1, h2, h3⟩ := runD A hQ hr
    have hcl : ∀ r ∈ E.rules, ∀ θ, (∀ b ∈ r.2, b.sub θ ∈ st.chart) → r.1.sub θ ∈ st.chart ∧ r.1.sub θ ≠ FAIL := by
      intro r hr θ hb
      by_cases hnil : r.2 = []
      · exact h3 r hr hnil θ
      · exact h1.closed r hr hnil θ fun b hb' => ⟨hb b hb', by simp [ha], by simp⟩
    have hder : ∀ x, Der E D x → x ∈ st.chart := by
      intro x hx
      induction hx with
      | input hc => exact h2 hc
      | rule hr _ _ ih => exact (hcl _ hr _ ih).1
      | hook _ hx ih => exact run_hooked A hQ ‹_› _ ih (by simp [ha]) hx
    refine ⟨?_, fun x => ⟨h1.der x, hder x⟩⟩
    rintro (⟨r, hr, θ, hb, e⟩ | ⟨x, hx, hno⟩)
    · exact (hcl r hr θ fun b hb' => hder _ (hb b hb')).2 e
    · exact h1.chk x (hder x hx) (by simp [ha]) (by simp) hno

/-- **C48, order independence.**  Without equalities, two runs of propagation on the same input, with
different iteration orders, return the same set of constraints, or both return `None`. -/
theorem C48_order (A : Apart E L D) (hQ : Quiet E D) {o o' : Option St} (h : Returns E D o) (h' : Returns E D o') :
    (o = none ↔ o' = none) ∧ ∀ st st', o = some st → o' = some st' → ∀ x, x ∈ st.chart ↔ x ∈ st'.chart := by
  have a := C48_result A hQ h
  have b := C48_result A hQ h'
  refine ⟨?_, fun st st' e e' x => ((a.1 st e).2 x).trans ((b.1 st' e').2 x).symm⟩
  cases o with
  | none => cases o' with
    | none => simp
    | some st => exact absurd (a.2 rfl) (b.1 st rfl).1
  | some st => cases o' with
    | none => exact absurd (b.2 rfl) (a.1 st rfl).1
    | some st => simp

end Order

/-! ### Running the code -/

/-- The `while` loop with the given choices of `agenda.pop()`, sets being iterated in order of insertion. -/
def exec (E : Env) (f : Nat) : List Nat → St → Out
  | [], st => .ok st
  | i :: is, st => match st.agenda[i]? with
    | none => .err
    | some d => (body E f _root_.id d { st with agenda := st.agenda.eraseIdx i }).bind (exec E f is)

theorem exec_run {E : Env} {f : Nat} {D : List Tm} : ∀ {is : List Nat} {st : St}, Run E D st →
    (∀ st', exec E f is st = .ok st' → Run E D st') ∧ (exec E f is st = .fail → Returns E D none) := by
  intro is
  induction is with
  | nil => intro st h; exact ⟨fun st' e => by cases e; exact h, fun e => by cases e⟩
  | cons i is ih =>
    intro st h
    simp only [exec]
    cases hi : st.agenda[i]? with
    | none => exact ⟨fun _ e => (nomatch e), fun e => (nomatch e)⟩
    | some d =>
      obtain ⟨hlt, hd⟩ := List.getElem?_eq_some_iff.1 hi
      have e1 : st.agenda = st.agenda.take i ++ d :: st.agenda.drop (i + 1) := by
        rw [← hd, List.getElem_cons_drop, List.take_append_drop]
      have e2 : st.agenda.eraseIdx i = st.agenda.take i ++ st.agenda.drop (i + 1) :=
        List.eraseIdx_eq_take_drop_succ _ _
      simp only
      rw [e2]
      cases hb : body E f _root_.id d { st with agenda := st.agenda.take i ++ st.agenda.drop (i + 1) } with
      | ok st1 =>
        exact ih (.step h e1 (fun l => .refl _) hb)
      | fail => exact ⟨fun _ e => (nomatch e), fun _ => .fail h e1 (fun l => .refl _) hb⟩
      | oof => exact ⟨fun _ e => (nomatch e), fun e => (nomatch e)⟩
      | err => exact ⟨fun _ e => (nomatch e), fun e => (nomatch e)⟩

/-- A whole call. -/
def call (E : Env) (f : Nat) (D : List Tm) (is : List Nat) : Out := (start E f _root_.id D).bind (exec E f is)

theorem call_none {E : Env} {f : Nat} {D : List Tm} {is : List Nat} (h : call E f D is = .fail) : Returns E D none := by
  unfold call at h
  cases e : start E f _root_.id D with
  | ok st => rw [e] at h; exact (exec_run (.start (fun l => .refl _) e)).2 h
  | fail => exact .startFail (fun l => .refl _) e
  | oof => rw [e] at h; cases h
  | err => rw [e] at h; cases h

theorem call_some {E : Env} {f : Nat} {D : List Tm} {is : List Nat} {st : St} (h : call E f D is = .ok st)
    (ha : st.agenda = []) : Returns E D (some st) := by
  unfold call at h
  cases e : start E f _root_.id D with
  | ok st' => rw [e] at h; exact .done ((exec_run (.start (fun l => .refl _) e)).1 st h) ha
  | fail => rw [e] at h; cases h
  | oof => rw [e] at h; cases h
  | err => rw [e] at h; cases h

/-! ### Violations -/

section Violations

private def X : Tm := .var 0
private def Y : Tm := .var 1
private def Z : Tm := .var 2
private def three : Tm := .con (.int 3)
private def t1 (s : String) (x : Tm) : Tm := .app [fnc s, x]
private def t2 (s : String) (x y : Tm) : Tm := .app [fnc s, x, y]
private def env (rules : List (Tm × List Tm)) : Env := ⟨rules, fun _ => [.wait], fun _ => false, fun _ _ => [], fun _ => []⟩

/-- **C48 violated, order**: with equalities the result depends on the order in which the set of pending
constraints is popped.  For `p(X), X = Y, Y = 3` and the rule `$fail :- p(3)`, the contradiction is found if
`X = Y` comes before `Y = 3`, and missed otherwise. -/
theorem C48_order_dependent :
    let E := env [(FAIL, [t1 "p" three])]
    let D := [t1 "p" X, eqT X Y, eqT Y three]
    Returns E D none ∧ ∃ st, Returns E D (some st) := by
  refine ⟨call_none (f := 20) (is := [1, 1, 2]) (by decide +kernel), ?_⟩
  have h : ∃ st, call (env [(FAIL, [t1 "p" three])]) 20 [t1 "p" X, eqT X Y, eqT Y three] [2, 1, 1, 0] = .ok st ∧
      st.agenda = [] := by
    refine ⟨⟨[t1 "p" X, eqT X Y, eqT Y three, t1 "p" Y], [], [eqT Y three, eqT X Y], [eqT Y three, eqT X Y]⟩, ?_, rfl⟩
    decide +kernel
  obtain ⟨st, h1, h2⟩ := h
  exact ⟨st, call_some h1 h2⟩

/-- The interpretation where only equations are true. -/
def eqI : Set Tm := {t | ∃ a, t = eqT a a}

theorem eqI_model : Model (env []) eqI where
  rules := by simp [env]
  nofail := by rintro ⟨a, h⟩; simp [FAIL, eqT] at h
  eq a b _ _ := by
    constructor
    · rintro ⟨c, h⟩
      simp only [eqT, Tm.app.injEq, List.cons.injEq, and_true, true_and] at h
      rw [h.1, h.2]
    · rintro rfl; exact ⟨a, rfl⟩
  blt q σ _ _ c hc := by
    simp only [env, List.mem_singleton] at hc
    subst hc
    exact ⟨by simp, fun _ h => (nomatch h)⟩
  hooks q σ _ _ x hx := by simp [env] at hx

/-- **C48 violated, failure**: `f(X) = f(3)` is reported as a contradiction although it has a solution. -/
theorem C48_compound_equality :
    let D := [eqT (t1 "f" X) (t1 "f" three)]
    Returns (env []) D none ∧ Model (env []) eqI ∧ Apart (env []) ∅ D ∧ Solution eqI D fun _ => three := by
  refine ⟨call_none (f := 20) (is := [0]) (by decide +kernel), eqI_model, ⟨by simp [env], by simp [env], ?_, ?_, ?_⟩, ?_, ?_⟩
  · intro c _ n _ h; exact h
  · intro q _ eqs h; simp [env] at h
  · intro q _ x h; simp [env] at h
  · intro n; simp [three]
  · intro c hc
    simp only [List.mem_singleton] at hc
    subst hc
    exact ⟨t1 "f" three, by simp [eqT, t1, X, three]⟩

/-- **C48 violated, checked constraints**: the constraint `ks(X)` is marked as checked without any bindings,
because the recursive query finds it in the chart, although some values of `X` do not satisfy it. -/
theorem C48_ks_checked :
    let E := env [(t1 "ks" (.app [fnc "$nil"]), [])]
    let I := eqI ∪ {t1 "ks" (.app [fnc "$nil"])}
    ∃ st, Returns E [t1 "ks" X] (some st) ∧ t1 "ks" X ∈ st.checked ∧ st.bindings = [] ∧
      Model E I ∧ (t1 "ks" X).sub (fun _ => three) ∉ I := by
  refine ⟨⟨[t1 "ks" X, t1 "ks" (.app [fnc "$nil"])], [], [], [t1 "ks" X, t1 "ks" (.app [fnc "$nil"])]⟩,
    call_some (f := 20) (is := [0, 0]) (by decide +kernel) rfl, by simp, rfl, ⟨?_, ?_, ?_, ?_, ?_⟩, ?_⟩
  · intro r hr θ _ _
    simp only [env, List.mem_singleton] at hr
    subst hr
    exact .inr (by simp [t1])
  · rintro (⟨a, h⟩ | h)
    · simp [FAIL, eqT] at h
    · simp [FAIL, t1] at h
  · intro a b ha hb
    constructor
    · rintro (h | h)
      · exact (eqI_model.eq a b ha hb).1 h
      · simp [eqT, t1] at h
    · rintro rfl; exact .inl ⟨a, rfl⟩
  · intro q σ _ _ c hc
    simp only [env, List.mem_singleton] at hc
    subst hc
    exact ⟨by simp, fun _ h => (nomatch h)⟩
  · intro q σ _ _ x hx; simp [env] at hx
  · rintro (⟨a, h⟩ | h)
    · simp [t1, eqT] at h
    · simp [t1, X, three] at h

/-! ### Examples -/

/-- `<` is transitive and irreflexive. -/
private def ord2 : Env := env [
  (t2 "<" (.var 10) (.var 12), [t2 "<" (.var 10) (.var 11), t2 "<" (.var 11) (.var 12)]),
  (FAIL, [t2 "<" (.var 10) (.var 10)])]

private theorem ord2_apart {D : List Tm} (h : ∀ c ∈ D, Avoids {10, 11, 12} c) : Apart ord2 {10, 11, 12} D where
  body r hr n hn := by
    simp only [ord2, env, List.mem_cons, List.not_mem_nil, or_false] at hr
    rcases hr with rfl | rfl
    · simp [t2] at hn; simp; tauto
    · simp [t2] at hn; simp; tauto
  head r hr n hn := by
    simp only [ord2, env, List.mem_cons, List.not_mem_nil, or_false] at hr
    rcases hr with rfl | rfl
    · simp [t2] at hn ⊢; tauto
    · simp [FAIL] at hn
  inputs := h
  blt q _ eqs h := by simp [ord2, env] at h
  hooks q _ x h := by simp [ord2, env] at h

private theorem ord2_quiet {D : List Tm} (h : ∀ c ∈ D, ∃ x y, c = t2 "<" x y) : Quiet ord2 D := by
  have key : ∀ x, Der ord2 D x → ∃ a b, x = t2 "<" a b := by
    intro x hx
    induction hx with
    | input hc => exact h _ hc
    | @rule r θ hr _ hne _ =>
      simp only [ord2, env, List.mem_cons, List.not_mem_nil, or_false] at hr
      rcases hr with rfl | rfl
      · exact ⟨θ 10, θ 12, by simp [t2]⟩
      · simp [FAIL] at hne
    | hook _ hx => simp [ord2, env] at hx
  intro x hx
  obtain ⟨a, b, rfl⟩ := key x hx
  refine ⟨by simp [t2, fnIs], fun eqs h => ?_⟩
  simp [check, t2, fnIs, ord2, env] at h

/-- `X < Y, Y < Z` gives `X < Z` in every order. -/
example : ∃ st, Returns ord2 [t2 "<" X Y, t2 "<" Y Z] (some st) ∧ t2 "<" X Z ∈ st.chart ∧
    ∀ o, Returns ord2 [t2 "<" X Y, t2 "<" Y Z] o → ∃ st', o = some st' ∧ ∀ x, x ∈ st'.chart ↔ x ∈ st.chart := by
  have hA : Apart ord2 {10, 11, 12} [t2 "<" X Y, t2 "<" Y Z] := ord2_apart fun c hc n hn => by
    simp only [List.mem_cons, List.not_mem_nil, or_false] at hc
    rcases hc with rfl | rfl <;> simp [t2, X, Y, Z] at hn <;> rcases hn with rfl | rfl <;> simp
  have hQ : Quiet ord2 [t2 "<" X Y, t2 "<" Y Z] := ord2_quiet fun c hc => by
    simp only [List.mem_cons, List.not_mem_nil, or_false] at hc
    rcases hc with rfl | rfl <;> exact ⟨_, _, rfl⟩
  have hr : Returns ord2 [t2 "<" X Y, t2 "<" Y Z]
      (some ⟨[t2 "<" X Y, t2 "<" Y Z, t2 "<" X Z], [], [], []⟩) :=
    call_some (f := 20) (is := [0, 0, 0]) (by decide +kernel) rfl
  refine ⟨_, hr, by simp, fun o ho => ?_⟩
  have h := C48_order hA hQ hr ho
  cases o with
  | none => simp at h
  | some st' => exact ⟨st', rfl, fun x => (h.2 _ st' rfl rfl x).symm⟩

/-- `X < Y, Y < X` is contradictory in every order. -/
example : ∀ o, Returns ord2 [t2 "<" X Y, t2 "<" Y X] o → o = none := by
  have hA : Apart ord2 {10, 11, 12} [t2 "<" X Y, t2 "<" Y X] := ord2_apart fun c hc n hn => by
    simp only [List.mem_cons, List.not_mem_nil, or_false] at hc
    rcases hc with rfl | rfl <;> simp [t2, X, Y] at hn <;> rcases hn with rfl | rfl <;> simp
  have hQ : Quiet ord2 [t2 "<" X Y, t2 "<" Y X] := ord2_quiet fun c hc => by
    simp only [List.mem_cons, List.not_mem_nil, or_false] at hc
    rcases hc with rfl | rfl <;> exact ⟨_, _, rfl⟩
  have hr : Returns ord2 [t2 "<" X Y, t2 "<" Y X] none := call_none (f := 20) (is := [0, 0]) (by decide +kernel)
  exact fun o ho => (C48_order hA hQ hr ho).1.1 rfl

/-- `is(x, y)` evaluates to the binding `x = y`. -/
private def isEnv : Env :=
  ⟨[], fun q => match q with
    | .app [_, x, y] => [.yes [(x, y)]]
    | _ => [.wait], fun _ => true, fun _ _ => [], fun _ => []⟩
private def isI : Set Tm := {t | ∃ f a, t = .app [f, a, a]}

private theorem isEnv_model : Model isEnv isI where
  rules := by simp [isEnv]
  nofail := by rintro ⟨f, a, h⟩; simp [FAIL] at h
  eq a b _ _ := by
    constructor
    · rintro ⟨f, c, h⟩
      simp only [eqT, Tm.app.injEq, List.cons.injEq, and_true] at h
      rw [h.2.1, h.2.2]
    · rintro rfl; exact ⟨_, a, rfl⟩
  blt q σ _ hq c hc := by
    simp only [isEnv] at hc
    split at hc
    · simp only [List.mem_singleton] at hc
      subst hc
      refine ⟨by simp, fun eqs e kv hkv => ?_⟩
      cases e
      obtain ⟨f, a, h⟩ := hq
      simp only [List.mem_singleton] at hkv
      subst hkv
      simp at h
      rw [h.2.1, h.2.2]
    · simp only [List.mem_singleton] at hc
      subst hc
      exact ⟨by simp, fun _ h => (nomatch h)⟩
  hooks q σ _ _ x hx := by simp [isEnv] at hx

/-- `p(X), is(X, 3)`: the built-in constraint is evaluated to `X = 3`, and what propagation gives has the same
solutions. -/
example : ∃ st, Returns isEnv [t1 "p" X, t2 "is" X three] (some st) ∧ eqT X three ∈ st.bindings ∧
    t2 "is" X three ∈ st.checked ∧ t1 "p" three ∈ st.chart ∧
    (∀ σ, Solution isI st.chart σ ↔ Solution isI [t1 "p" X, t2 "is" X three] σ) := by
  have hA : Apart isEnv ∅ [t1 "p" X, t2 "is" X three] :=
    ⟨by simp [isEnv], by simp [isEnv], fun c _ n _ h => h, fun q _ eqs _ kv _ => ⟨fun n _ h => h, fun n _ h => h⟩,
      by simp [isEnv]⟩
  have h : (match call isEnv 20 [t1 "p" X, t2 "is" X three] [1, 1, 0, 0, 0, 0, 0, 0, 0, 0, 0, 0] with
      | .ok st => decide (st.agenda = [] ∧ eqT X three ∈ st.bindings ∧ t2 "is" X three ∈ st.checked ∧
          t1 "p" three ∈ st.chart)
      | _ => false) = true := by decide +kernel
  cases e : call isEnv 20 [t1 "p" X, t2 "is" X three] [1, 1, 0, 0, 0, 0, 0, 0, 0, 0, 0, 0] with
  | ok st =>
    rw [e] at h
    obtain ⟨h1, h2, h3, h4⟩ := of_decide_eq_true h
    refine ⟨st, call_some e h1, h2, h3, h4, fun σ => ?_⟩
    cases call_some e h1 with
    | done hr _ => exact C48_solutions hA isEnv_model hr σ
  | _ => rw [e] at h; cases h

end Violations

end Propagate
end Verif
