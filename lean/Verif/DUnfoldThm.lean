/-
Theorems about the derivation mapping of an unfold (`Verif.DUnfold`): C71.

Spec: `Inst r x b` says that `x` and `b` are the head and body of an instance of rule `r`; `Valid` says that a
tree is a derivation of a program, every node being an instance of the rule with its number.
-/
import Verif.DUnfold
import Verif.UnfoldThm
import Verif.UnfoldLift

set_option linter.unusedSectionVars false
set_option linter.unusedSimpArgs false

namespace Verif
open Tm Heap Sem
open Solver (noHeap forEach good_noHeap)

namespace DUnfold
open Unfold
variable {W : Type}

/-! ### Spec -/

/-- head and body of an instance of a rule; variables may be left -/
def Inst (r : WRule W) (x : Tm) (b : List (Lit W)) : Prop := ∃ θ, x = r.head.sub θ ∧ b = r.body.map (subLit θ)

/-- an atom of a builtin: an equality or a comparison -/
def IsBi (ops : Ops) (t : Tm) : Prop := ∃ c x y, t = .app [.con c, x, y] ∧ (ops c ≠ none ∨ c = .str "=")

/-- what a builtin atom requires -/
def Holds (ops : Ops) (t : Tm) : Prop :=
  ∃ c x y, t = .app [.con c, x, y] ∧ ((∃ o, ops c = some o ∧ vars x = ∅ ∧ vars y = ∅ ∧ o x y = true) ∨ (ops c = none ∧ x = y))

/-- a tree can be the child for a body element -/
inductive Fits (ops : Ops) : Lit W → Tree W → Prop
  | val (c : W) : Fits ops (.val c) (.const c)
  | bi (t : Tm) : IsBi ops t → Holds ops t → Fits ops (.sub t) (.bi t)
  | node (n : Nat) (t : Tm) (ks : List (Tree W)) : ¬ IsBi ops t → Fits ops (.sub t) (.node n t ks)

/-- a derivation of the program with these rules -/
inductive Valid (ops : Ops) (rules : List (WRule W)) : Tree W → Prop
  | const (c : W) : Valid ops rules (.const c)
  | bi (t : Tm) : Valid ops rules (.bi t)
  | node {n : Nat} {r : WRule W} {x : Tm} {b : List (Lit W)} {ks : List (Tree W)} : rules[n]? = some r → Inst r x b →
      List.Forall₂ (Fits ops) b ks → (∀ d ∈ ks, Valid ops rules d) → Valid ops rules (.node n x ks)

/-- the same leaf, or nodes for the same item -/
inductive Like : Tree W → Tree W → Prop
  | const (c : W) : Like (.const c) (.const c)
  | bi (t : Tm) : Like (.bi t) (.bi t)
  | node (n m : Nat) (x : Tm) (ks ls : List (Tree W)) : Like (.node n x ks) (.node m x ls)

/-- the instances of `t` are those of `head :- L, q, R` with `q` replaced by the body of an instance of `s`
whose head is `q` -/
def Resolves (head : Tm) (L : List (Lit W)) (q : Tm) (R : List (Lit W)) (s t : WRule W) : Prop :=
  ∀ x b, Inst t x b ↔ ∃ θ φ, s.head.sub φ = q.sub θ ∧ x = head.sub θ ∧
    b = L.map (subLit θ) ++ s.body.map (subLit φ) ++ R.map (subLit θ)

/-! ### Instances -/

theorem subLit_subLit (σ τ : Nat → Tm) (l : Lit W) : subLit τ (subLit σ l) = subLit (fun n => (σ n).sub τ) l := by
  cases l with
  | val k => rfl
  | sub t => simp only [subLit, Tm.sub_sub]

theorem map_subLit (σ τ : Nat → Tm) (b : List (Lit W)) :
    (b.map (subLit σ)).map (subLit τ) = b.map (subLit fun n => (σ n).sub τ) := by
  rw [List.map_map]; exact List.map_congr_left fun l _ => subLit_subLit σ τ l

theorem subLit_congr {σ τ : Nat → Tm} {l : Lit W} (h : ∀ n ∈ litVars l, σ n = τ n) : subLit σ l = subLit τ l := by
  cases l with
  | val k => rfl
  | sub t => simp only [subLit]; rw [sub_congr h]

theorem map_subLit_congr [CSemi W] {σ τ : Nat → Tm} {b : List (Lit W)} (h : ∀ n ∈ bodyVars b, σ n = τ n) :
    b.map (subLit σ) = b.map (subLit τ) :=
  List.map_congr_left fun _ hl => subLit_congr fun n hn => h n (mem_bodyVars.2 ⟨_, hl, hn⟩)

theorem renRule_eq (ρ : Nat → Nat) (r : WRule W) : renRule ρ r = subRule (fun n => .var (ρ n)) r := by
  simp only [renRule, subRule]
  congr 1

theorem inst_sub {σ : Nat → Tm} {r : WRule W} {x : Tm} {b : List (Lit W)} (h : Inst (subRule σ r) x b) :
    ∃ θ, x = r.head.sub (fun n => (σ n).sub θ) ∧ b = r.body.map (subLit fun n => (σ n).sub θ) := by
  obtain ⟨θ, rfl, rfl⟩ := h
  exact ⟨θ, by simp only [subRule, Tm.sub_sub], by simp only [subRule, map_subLit]⟩

/-- renaming the variables of a rule apart does not change its instances -/
theorem inst_ren [CSemi W] {ρ : Nat → Nat} {r : WRule W} (h : Set.InjOn ρ (rvars r)) (x : Tm) (b : List (Lit W)) :
    Inst (renRule ρ r) x b ↔ Inst r x b := by
  classical
  rw [renRule_eq]
  constructor
  · intro hi
    obtain ⟨θ, h1, h2⟩ := inst_sub hi
    exact ⟨_, h1, h2⟩
  · rintro ⟨θ, rfl, rfl⟩
    let τ : Nat → Tm := fun n => if hn : ∃ m ∈ rvars r, ρ m = n then θ hn.choose else .var n
    have ht : ∀ m ∈ rvars r, τ (ρ m) = θ m := by
      intro m hm
      have hn : ∃ m' ∈ rvars r, ρ m' = ρ m := ⟨m, hm, rfl⟩
      simp only [τ, dif_pos hn]
      rw [h hn.choose_spec.1 hm hn.choose_spec.2]
    refine ⟨τ, ?_, ?_⟩
    · simp only [subRule, Tm.sub_sub, Tm.sub]
      exact sub_congr fun n hn => (ht n (by simp only [rvars, Finset.mem_union]; exact .inl hn)).symm
    · simp only [subRule, map_subLit, Tm.sub]
      exact map_subLit_congr fun n hn => (ht n (by simp only [rvars, Finset.mem_union]; exact .inr hn)).symm

/-! ### The rules that are added -/

section
variable [CSemi W] [DecidableEq W]

/-- no variable of the head of `s` is missing from its body -/
def Covered (s : WRule W) : Prop := vars s.head ⊆ bodyVars s.body

theorem made_covered {σ : Nat → Tm} {head : Tm} {L R : List (Lit W)} {s : WRule W} (inf : W) (hc : Covered s) :
    made inf (subRule σ ⟨head, L ++ s.body ++ R⟩) (subRule σ s) = subRule σ ⟨head, L ++ s.body ++ R⟩ := by
  unfold made
  rw [if_pos]
  intro n hn
  obtain ⟨m, hm, hn⟩ := mem_rvars_sub.1 hn
  refine mem_rvars_sub.2 ⟨m, ?_, hn⟩
  simp only [rvars, Finset.mem_union, bodyVars_append] at hm ⊢
  rcases hm with h | h
  · exact .inr (.inl (.inr (hc h)))
  · exact .inr (.inl (.inr h))

theorem tryRule_inst {K : Nat} {head : Tm} {L : List (Lit W)} {q : Tm} {R : List (Lit W)}
    (hr : Below K (⟨head, L ++ .sub q :: R⟩ : WRule W)) (inf : W) (s : WRule W) (hc : Covered s) (i : Nat) (st : US W) (hK : K ≤ st.k) :
    ∃ out k', Evt (fun f => tryRule f q (resolvent f inf head L R) (s, i) noHeap st = some (noHeap, ⟨st.out ++ out, k'⟩, .done)) ∧
      st.k ≤ k' ∧ ((out = [] ∧ ∀ θ φ, s.head.sub φ ≠ q.sub θ) ∨ ∃ t, out = [(t, some i)] ∧ Resolves head L q R s t) := by
  classical
  obtain ⟨ρ, hρ1, hρ2, hρ3, hρ4⟩ := freshR_spec st.k s
  set s' := (freshR st.k s).1 with hs'
  have hVs : ∀ n ∈ rvars s', st.k ≤ n := by
    intro n hn
    rw [hρ1, rvars_renRule, Finset.mem_image] at hn
    obtain ⟨m, hm, rfl⟩ := hn
    exact (hρ3 m hm).1
  have hcs : Covered s' := by
    intro n hn
    rw [hρ1] at hn ⊢
    simp only [renRule, mem_vars_sub, mem_bodyVars, List.mem_map] at hn ⊢
    obtain ⟨m, hm, hn⟩ := hn
    obtain ⟨l, hl, hlm⟩ := mem_bodyVars.1 (hc hm)
    refine ⟨_, ⟨l, hl, rfl⟩, ?_⟩
    cases l with
    | val k => simp [litVars] at hlm
    | sub t => simp only [renLit, litVars, mem_vars_sub]; exact ⟨m, hlm, hn⟩
  have hb1 : ∀ n ∈ vars head, n < st.k := fun n hn => lt_of_lt_of_le (hr n (by simp only [rvars, Finset.mem_union]; exact .inl hn)) hK
  have hbq : ∀ n ∈ vars q, n < st.k := fun n hn => lt_of_lt_of_le (hr n (by
    simp only [rvars, bodyVars_append, bodyVars, litVars, Finset.mem_union]; exact .inr (.inr (.inl hn)))) hK
  have hbL : ∀ n ∈ bodyVars L, n < st.k := fun n hn => lt_of_lt_of_le (hr n (by
    simp only [rvars, bodyVars_append, bodyVars, litVars, Finset.mem_union]; exact .inr (.inl hn))) hK
  have hbR : ∀ n ∈ bodyVars R, n < st.k := fun n hn => lt_of_lt_of_le (hr n (by
    simp only [rvars, bodyVars_append, bodyVars, litVars, Finset.mem_union]; exact .inr (.inr (.inr hn)))) hK
  -- two substitutions, one for the rule and one for the definition, as one
  have glue : ∀ θ φ : Nat → Tm, ∃ τ : Nat → Tm, (∀ n, n < st.k → τ n = θ n) ∧ s'.head.sub τ = s.head.sub φ ∧
      s'.body.map (subLit τ) = s.body.map (subLit φ) := by
    intro θ φ
    obtain ⟨ψ, e1, e2⟩ := (inst_ren hρ2 (s.head.sub φ) (s.body.map (subLit φ))).2 ⟨φ, rfl, rfl⟩
    rw [← hρ1] at e1 e2
    refine ⟨fun n => if n < st.k then θ n else ψ n, fun n hn => if_pos hn, ?_, ?_⟩
    · rw [e1]
      refine sub_congr fun n hn => if_neg (Nat.not_lt.2 (hVs n ?_))
      simp only [rvars, Finset.mem_union]; exact .inl hn
    · rw [e2]
      refine map_subLit_congr fun n hn => if_neg (Nat.not_lt.2 (hVs n ?_))
      simp only [rvars, Finset.mem_union]; exact .inr hn
  obtain ⟨res', hs, he⟩ := unify_result good_noHeap s'.head q
  cases res' with
  | none =>
    cases hs with
    | fail hf =>
    refine ⟨[], (freshR st.k s).2, he.mono fun f e => ?_, hρ4, .inl ⟨rfl, fun θ φ e => ?_⟩⟩
    · simp only [tryRule, ← hs']
      rw [e]; simp [run]
    · obtain ⟨τ, h1, h2, _⟩ := glue θ φ
      refine hf τ (fun n t h => by simp [noHeap] at h) ?_
      rw [h2, e]
      exact (sub_congr fun n hn => h1 n (hbq n hn)).symm
  | some bs =>
    cases hs with
    | ok _ hg hr' hn hd hv =>
    set t' := made inf (subRule (res (bindAll noHeap bs)) ⟨head, L ++ s'.body ++ R⟩) (subRule (res (bindAll noHeap bs)) s') with ht'
    obtain ⟨ρ', hp1, hp2, hp3, hp4⟩ := freshR_spec (freshR st.k s).2 t'
    have hu : unbindAll bs (bindAll noHeap bs) = noHeap := unbindAll_bindAll hn fun p _ => rfl
    refine ⟨[((freshR (freshR st.k s).2 t').1, some i)], (freshR (freshR st.k s).2 t').2, ?_, le_trans hρ4 hp4, .inr ⟨_, rfl, ?_⟩⟩
    · refine (he.and (resolvent_evt hg inf head L R s' (some i))).mono fun f e => ?_
      simp only [tryRule, ← hs']
      rw [e.1]
      simp only [run, e.2, hu]
      rfl
    · intro x b
      rw [hp1, inst_ren hp2, ht', made_covered inf hcs]
      constructor
      · intro hi
        obtain ⟨θ, h1, h2⟩ := inst_sub hi
        have e := ((hr' _).1 hg.respects_res).2
        refine ⟨fun n => (res (bindAll noHeap bs) n).sub θ, fun n => (res (bindAll noHeap bs) (ρ n)).sub θ, ?_, h1, ?_⟩
        · have := congrArg (fun t => t.sub θ) e
          simp only [Tm.sub_sub] at this
          rw [← this, hρ1]
          simp only [renRule, Tm.sub_sub, Tm.sub]
        · rw [h2]
          simp only [List.map_append]
          rw [hρ1, renRule_eq]
          simp only [subRule, map_subLit, Tm.sub]
      · rintro ⟨θ, φ, e, rfl, rfl⟩
        obtain ⟨τ, h1, h2, h3⟩ := glue θ φ
        have hτ : Respects (bindAll noHeap bs) τ := (hr' τ).2 ⟨fun n t h => by simp [noHeap] at h, by
          rw [h2, e]; exact (sub_congr fun n hn => h1 n (hbq n hn)).symm⟩
        have hs2 : ∀ t : Tm, t.sub (fun n => (res (bindAll noHeap bs) n).sub τ) = t.sub τ := fun t => by
          rw [← Tm.sub_sub]; exact hg.sub_res hτ t
        have hl2 : ∀ b : List (Lit W), b.map (subLit fun n => (res (bindAll noHeap bs) n).sub τ) = b.map (subLit τ) := fun b =>
          List.map_congr_left fun l _ => by
            cases l with
            | val k => rfl
            | sub t => simp only [subLit, hs2]
        refine ⟨τ, ?_, ?_⟩
        · simp only [subRule, Tm.sub_sub, hs2]
          exact (sub_congr fun n hn => h1 n (hb1 n hn)).symm
        · simp only [subRule, map_subLit, hl2, List.map_append, h3]
          rw [map_subLit_congr fun n hn => h1 n (hbL n hn), map_subLit_congr fun n hn => h1 n (hbR n hn)]

/-- the rules added for a list of definitions -/
structure Adds (head : Tm) (L : List (Lit W)) (q : Tm) (R : List (Lit W)) (ds : List (WRule W × Nat)) (out : List (WRule W × Option Nat)) : Prop where
  nums : (out.map Prod.snd).Sublist (ds.map fun d => some d.2)
  each : ∀ t ∈ out, ∃ s i, t.2 = some i ∧ (s, i) ∈ ds ∧ Resolves head L q R s t.1
  all : ∀ d ∈ ds, (∃ θ φ, d.1.head.sub φ = q.sub θ) → ∃ t, (t, some d.2) ∈ out

theorem loop_inst {K : Nat} {head : Tm} {L : List (Lit W)} {q : Tm} {R : List (Lit W)}
    (hr : Below K (⟨head, L ++ .sub q :: R⟩ : WRule W)) (inf : W) : ∀ (ds : List (WRule W × Nat)), (∀ d ∈ ds, Covered d.1) →
    ∀ (st : US W), K ≤ st.k →
    ∃ out k', Evt (fun f => forEach ds (tryRule f q (resolvent f inf head L R)) noHeap st = some (noHeap, ⟨st.out ++ out, k'⟩, .done)) ∧
      st.k ≤ k' ∧ Adds head L q R ds out
  | [], _, st, _ => ⟨[], st.k, .of_all fun f => by simp [forEach], le_refl _, ⟨by simp, by simp, by simp⟩⟩
  | (s, i) :: ds, hd, st, hK => by
    obtain ⟨o1, k1, a1, a2, a3⟩ := tryRule_inst hr inf s (hd (s, i) (by simp)) i st hK
    obtain ⟨o2, k2, b1, b2, b3⟩ := loop_inst hr inf ds (fun d h => hd d (List.mem_cons_of_mem _ h)) ⟨st.out ++ o1, k1⟩ (le_trans hK a2)
    refine ⟨o1 ++ o2, k2, (a1.and b1).mono fun f e => ?_, le_trans a2 b2, ⟨?_, ?_, ?_⟩⟩
    · simp only [forEach, e.1, e.2, List.append_assoc]
    · rw [List.map_append, List.map_cons, ← List.singleton_append]
      refine List.Sublist.append ?_ b3.nums
      rcases a3 with ⟨rfl, _⟩ | ⟨t, rfl, _⟩ <;> simp
    · intro t ht
      rcases List.mem_append.1 ht with h | h
      · rcases a3 with ⟨rfl, _⟩ | ⟨t', rfl, h'⟩
        · simp at h
        · simp only [List.mem_singleton] at h
          subst h
          exact ⟨s, i, rfl, by simp, h'⟩
      · obtain ⟨s', i', c1, c2, c3⟩ := b3.each t h
        exact ⟨s', i', c1, List.mem_cons_of_mem _ c2, c3⟩
    · intro d hm hu
      rcases List.mem_cons.1 hm with rfl | hm
      · rcases a3 with ⟨_, h'⟩ | ⟨t', rfl, h'⟩
        · obtain ⟨θ, φ, e⟩ := hu
          exact absurd e (h' θ φ)
        · exact ⟨t', by simp⟩
      · obtain ⟨t, ht⟩ := b3.all d hm hu
        exact ⟨t, List.mem_append_right _ ht⟩

/-- what is assumed of the program and of the step -/
structure Ok (ops : Ops) (k : Nat) (p : Prog W) (i j : Nat) (r : WRule W) (q : Tm) : Prop extends Pre ops k p p i j r q where
  user : UserHead ops q
  covered : ∀ s ∈ p.rules, hfn s.head = hfn q → Covered s
  distinct : p.rules.Nodup

theorem unfold_adds {ops : Ops} {k : Nat} {p : Prog W} {i j : Nat} {r : WRule W} {q : Tm} (h : Ok ops k p i j r q) (inf : W) :
    ∃ out k', Evt (fun f => unfold f ops inf k p p i j = some (p.rules.erase r ++ out.map Prod.fst, ⟨out, k'⟩, .done)) ∧
      Adds r.head (r.body.take j) q (r.body.drop (j + 1)) p.rules.zipIdx out := by
  have hb := split_body h.goal
  have hr : r = ⟨r.head, r.body.take j ++ .sub q :: r.body.drop (j + 1)⟩ := by rw [← hb]
  obtain ⟨c, as, hq, hun, -⟩ := h.kind
  obtain ⟨c', as', hq', ho, hne⟩ := h.user
  obtain ⟨rfl, rfl⟩ : c = c' ∧ as = as' := by
    have := hq.symm.trans hq'
    simpa using this
  have hf : hfn q = some c := by rw [hq]; rfl
  obtain ⟨out, k', h1, h2, h3⟩ := loop_inst (K := k) (hr ▸ h.below) inf (offers p.rules c) (by
    intro d hd
    simp only [offers, List.mem_filter, beq_iff_eq] at hd
    exact h.covered d.1 (by obtain ⟨-, -, e⟩ := List.mem_zipIdx hd.1; rw [e]; exact List.getElem_mem _) (by rw [hd.2, hf])) ⟨[], k⟩ (le_refl _)
  refine ⟨out, k', ?_, ⟨?_, ?_, ?_⟩⟩
  · refine (h1.and (isInput_evt h.notInput)).mono fun f e => ?_
    have hl : lookup f ops p.rules q (resolvent f inf r.head (r.body.take j) (r.body.drop (j + 1))) noHeap ⟨[], k⟩ =
        forEach (offers p.rules c) (tryRule f q (resolvent f inf r.head (r.body.take j) (r.body.drop (j + 1)))) noHeap ⟨[], k⟩ := by
      subst hq
      simp only [lookup, hun, ho]
      split
      · simp at *
      · split
        · simp at *
        · simp
    simp only [unfold, h.rule, h.goal, e.2, hl, e.1, List.nil_append]
  · exact h3.nums.trans (List.filter_sublist.map _)
  · intro t ht
    obtain ⟨s, i', c1, c2, c3⟩ := h3.each t ht
    exact ⟨s, i', c1, (List.mem_filter.1 c2).1, c3⟩
  · intro d hd hu
    refine h3.all d ?_ hu
    simp only [offers, List.mem_filter, beq_iff_eq]
    refine ⟨hd, ?_⟩
    obtain ⟨θ, φ, e⟩ := hu
    have hm : d.1 ∈ p.rules := by obtain ⟨-, -, e⟩ := List.mem_zipIdx hd; rw [e]; exact List.getElem_mem _
    obtain ⟨c2, as2, e2, -, -⟩ := h.heads d.1 hm
    rw [e2, hq] at e
    rw [e2]
    simp only [Tm.sub, subL, Tm.app.injEq, List.cons.injEq, Tm.con.injEq] at e
    simp only [hfn, e.1]

/-! ### The mapping -/

theorem sizeL_append (a b : List (Tree W)) : sizeL (a ++ b) = sizeL a + sizeL b := by
  induction a with
  | nil => simp [sizeL]
  | cons d a ih => simp [sizeL, ih]; omega

theorem leavesL_append (a b : List (Tree W)) : leavesL (a ++ b) = leavesL a ++ leavesL b := by
  induction a with
  | nil => simp [leavesL]
  | cons d a ih => simp [leavesL, ih]

theorem size_mem {d : Tree W} {ks : List (Tree W)} (h : d ∈ ks) : d.size ≤ sizeL ks := by
  induction ks with
  | nil => simp at h
  | cons e ks ih =>
    simp only [sizeL]
    rcases List.mem_cons.1 h with rfl | h
    · omega
    · have := ih h; omega

theorem trL_append (c : Cfg W) (a b : List (Tree W)) :
    trL c (a ++ b) = match trL c a, trL c b with | some a', some b' => some (a' ++ b') | _, _ => none := by
  induction a with
  | nil => simp only [List.nil_append, trL]; cases trL c b <;> rfl
  | cons d a ih =>
    simp only [List.cons_append, trL, ih]
    cases tr c d <;> cases trL c a <;> cases trL c b <;> rfl

/-- the children of the new node are those of the concatenation (unfold.py:87-91) -/
theorem trAt_eq (c : Cfg W) (m : Nat) (y : Tm) (ks b : List (Tree W)) : ∀ a : List (Tree W),
    trAt c a.length (a ++ .node m y ks :: b) = (trL c (a ++ ks ++ b)).map fun l => (m, l)
  | [] => by
    simp only [List.nil_append, List.length_nil, trAt, trL_append]
    cases trL c ks <;> cases trL c b <;> rfl
  | d :: a => by
    simp only [List.cons_append, List.length_cons, trAt, trAt_eq c m y ks b a, trL]
    cases tr c d <;> cases trL c (a ++ ks ++ b) <;> rfl

theorem fits_like {ops : Ops} {l : Lit W} {d d' : Tree W} (h : Fits ops l d) (hl : Like d d') : Fits ops l d' := by
  cases h with
  | val c => cases hl; exact .val c
  | bi t a b => cases hl; exact .bi t a b
  | node n t ks a => cases hl; exact .node _ t _ a

theorem fits_like' {ops : Ops} {l : Lit W} {d d' : Tree W} (h : Fits ops l d') (hl : Like d d') : Fits ops l d := by
  cases h with
  | val c => cases hl; exact .val c
  | bi t a b => cases hl; exact .bi t a b
  | node n t ks a => cases hl; exact .node _ t _ a

theorem fits_all {ops : Ops} : ∀ {b : List (Lit W)} {ks ks' : List (Tree W)}, List.Forall₂ (Fits ops) b ks →
    List.Forall₂ Like ks ks' → List.Forall₂ (Fits ops) b ks'
  | _, _, _, .nil, .nil => .nil
  | _, _, _, .cons h1 h2, .cons g1 g2 => .cons (fits_like h1 g1) (fits_all h2 g2)

theorem fits_all' {ops : Ops} : ∀ {b : List (Lit W)} {ks ks' : List (Tree W)}, List.Forall₂ (Fits ops) b ks' →
    List.Forall₂ Like ks ks' → List.Forall₂ (Fits ops) b ks
  | _, _, _, .nil, .nil => .nil
  | _, _, _, .cons h1 h2, .cons g1 g2 => .cons (fits_like' h1 g1) (fits_all' h2 g2)

/-- what the mapping is to do with one tree -/
def Good1 (ops : Ops) (c : Cfg W) (d : Tree W) : Prop :=
  ∃ d', tr c d = some d' ∧ Valid ops c.new d' ∧ Like d d' ∧ d'.leaves = d.leaves

theorem trL_good {ops : Ops} {c : Cfg W} : ∀ {ks : List (Tree W)}, (∀ d ∈ ks, Good1 ops c d) →
    ∃ ks', trL c ks = some ks' ∧ (∀ d ∈ ks', Valid ops c.new d) ∧ List.Forall₂ Like ks ks' ∧ leavesL ks' = leavesL ks
  | [], _ => ⟨[], rfl, by simp, .nil, rfl⟩
  | d :: ks, h => by
    obtain ⟨d', a1, a2, a3, a4⟩ := h d (by simp)
    obtain ⟨ks', b1, b2, b3, b4⟩ := trL_good (ks := ks) fun d hd => h d (List.mem_cons_of_mem _ hd)
    refine ⟨d' :: ks', by simp only [trL, a1, b1], ?_, .cons a3 b3, by simp only [leavesL, a4, b4]⟩
    intro e he
    rcases List.mem_cons.1 he with rfl | he
    · exact a2
    · exact b2 e he

/-- the configuration of a step and what is known of it -/
structure Step (ops : Ops) (c : Cfg W) (r : WRule W) (q : Tm) : Prop where
  rule : c.old[c.i]? = some r
  goal : r.body[c.j]? = some (.sub q)
  kept : c.kept = c.old.erase r
  distinct : c.old.Nodup
  heads : UserHead ops q
  user : ∀ s ∈ c.old, UserHead ops s.head
  cov : ∀ s ∈ c.old, hfn s.head = hfn q → Covered s
  adds : Adds r.head (r.body.take c.j) q (r.body.drop (c.j + 1)) c.old.zipIdx c.out

theorem not_bi {ops : Ops} {q : Tm} (h : UserHead ops q) (θ : Nat → Tm) : ¬ IsBi ops (q.sub θ) := by
  obtain ⟨c, as, rfl, ho, hn⟩ := h
  rintro ⟨c', x, y, e, h⟩
  simp only [Tm.sub, subL, Tm.app.injEq, List.cons.injEq, Tm.con.injEq] at e
  obtain ⟨rfl, -⟩ := e
  rcases h with h | h
  · exact h ho
  · exact hn h

section
variable {ops : Ops} {c : Cfg W} {r : WRule W} {q : Tm}

theorem Step.outNodup (h : Step ops c r q) : (c.out.map Prod.snd).Nodup := by
  refine h.adds.nums.nodup ?_
  have : (c.old.zipIdx.map fun d => some d.2) = (List.range c.old.length).map some := by
    rw [show (fun d : WRule W × Nat => some d.2) = some ∘ Prod.snd from rfl, ← List.map_map, List.zipIdx_map_snd]
    simp [List.range_eq_range']
  rw [this]
  exact (List.nodup_range).map (fun _ _ e => Option.some.inj e)

/-- `def2new` is the position of the rule added for a definition -/
theorem Step.def2new_iff (h : Step ops c r q) {m I : Nat} :
    c.def2new m = some I ↔ ∃ u t, I = c.kept.length + u ∧ c.out[u]? = some (t, some m) := by
  have key : ∀ (u : Nat) (t : WRule W), c.out[u]? = some (t, some m) → ∀ (v : Nat) (s : WRule W), c.out[v]? = some (s, some m) → u = v := by
    intro u t hu v s hv
    obtain ⟨hu1, hu2⟩ := List.getElem?_eq_some_iff.1 hu
    obtain ⟨hv1, hv2⟩ := List.getElem?_eq_some_iff.1 hv
    refine (List.Nodup.getElem_inj_iff h.outNodup (hi := by simpa using hu1) (hj := by simpa using hv1)).1 ?_
    simp only [List.getElem_map, hu2, hv2]
  unfold Cfg.def2new
  constructor
  · intro e
    obtain ⟨o, ho, rfl⟩ := Option.map_eq_some_iff.1 e
    have h1 := List.find?_some ho
    have h2 := List.mem_of_find?_eq_some ho
    rw [List.mem_reverse] at h2
    refine ⟨o.2, o.1.1, rfl, ?_⟩
    rw [List.mem_zipIdx_iff_getElem?] at h2
    rw [h2]
    simp only [beq_iff_eq] at h1
    rw [← h1]
  · rintro ⟨u, t, rfl, hu⟩
    cases hf : c.out.zipIdx.reverse.find? (fun o => o.1.2 == some m) with
    | none =>
      rw [List.find?_eq_none] at hf
      have := hf ((t, some m), u) (by rw [List.mem_reverse, List.mem_zipIdx_iff_getElem?]; exact hu)
      simp at this
    | some o =>
      have h1 := List.find?_some hf
      have h2 := List.mem_of_find?_eq_some hf
      rw [List.mem_reverse, List.mem_zipIdx_iff_getElem?] at h2
      simp only [beq_iff_eq] at h1
      have : u = o.2 := key u t hu o.2 o.1.1 (by rw [h2, ← h1])
      simp [this]

/-- `index` finds a rule that was kept where it is -/
theorem Step.idx_iff (h : Step ops c r q) {n I : Nat} {R : WRule W} (hR : c.old[n]? = some R) (hn : n ≠ c.i) :
    c.new.idxOf? R = some I ↔ c.kept[I]? = some R := by
  have hk : c.kept.Nodup := h.kept ▸ h.distinct.erase _
  have hRr : R ≠ r := by
    rintro rfl
    obtain ⟨hu1, hu2⟩ := List.getElem?_eq_some_iff.1 hR
    obtain ⟨hv1, hv2⟩ := List.getElem?_eq_some_iff.1 h.rule
    exact hn ((List.Nodup.getElem_inj_iff h.distinct).1 (hu2.trans hv2.symm))
  have hm : R ∈ c.kept := by
    rw [h.kept, List.mem_erase_of_ne hRr]
    exact List.mem_of_getElem? hR
  have h1 : c.new.idxOf? R = some (c.kept.idxOf R) := by
    rw [List.idxOf?_eq_some_iff]
    have hl := List.idxOf_lt_length_iff.2 hm
    refine ⟨by simp only [Cfg.new, List.length_append]; omega, ?_, ?_⟩
    · simp only [Cfg.new, List.getElem_append_left hl, List.getElem_idxOf]
    · intro v hv
      simp only [Cfg.new, List.getElem_append_left (lt_trans hv hl)]
      exact fun e => by simpa [e] using List.not_of_lt_findIdx (p := (· == R)) hv
  rw [h1]
  constructor
  · intro e
    obtain rfl := Option.some.inj e
    rw [List.getElem?_eq_getElem (List.idxOf_lt_length_iff.2 hm), List.getElem_idxOf]
  · intro e
    obtain ⟨hu1, hu2⟩ := List.getElem?_eq_some_iff.1 e
    rw [← hu2, List.Nodup.idxOf_getElem hk]

theorem Step.splitBody (h : Step ops c r q) : r.body = r.body.take c.j ++ .sub q :: r.body.drop (c.j + 1) := split_body h.goal

theorem forall2_append_left {α β : Type} {P : α → β → Prop} : ∀ {a b : List α} {l : List β}, List.Forall₂ P (a ++ b) l →
    ∃ l1 l2, l = l1 ++ l2 ∧ List.Forall₂ P a l1 ∧ List.Forall₂ P b l2
  | [], b, l, h => ⟨[], l, rfl, .nil, h⟩
  | x :: a, b, _, .cons h1 h2 => by
    obtain ⟨l1, l2, rfl, a1, a2⟩ := forall2_append_left (a := a) h2
    exact ⟨_ :: l1, l2, rfl, .cons h1 a1, a2⟩

/-- a node for the unfolded rule -/
theorem Step.top (h : Step ops c r q) {x : Tm} {ks : List (Tree W)} (hv : Valid ops c.old (.node c.i x ks)) :
    ∃ θ φ m s a y l b, ks = a ++ .node m y l :: b ∧ a.length = c.j ∧ x = r.head.sub θ ∧ y = q.sub θ ∧ c.old[m]? = some s ∧ Covered s ∧
      s.head.sub φ = y ∧
      List.Forall₂ (Fits ops) ((r.body.take c.j).map (subLit θ)) a ∧ List.Forall₂ (Fits ops) (s.body.map (subLit φ)) l ∧
      List.Forall₂ (Fits ops) ((r.body.drop (c.j + 1)).map (subLit θ)) b ∧
      (∀ d ∈ a, Valid ops c.old d) ∧ (∀ d ∈ l, Valid ops c.old d) ∧ (∀ d ∈ b, Valid ops c.old d) := by
  cases hv with
  | node h1 h2 h3 h4 =>
  obtain rfl := Option.some.inj (h1.symm.trans h.rule)
  obtain ⟨θ, rfl, rfl⟩ := h2
  have h3' := h3
  rw [h.splitBody, List.map_append, List.map_cons] at h3'
  obtain ⟨a, rest, rfl, a1, a2⟩ := forall2_append_left h3'
  cases a2 with
  | cons b1 b2 =>
  rename_i d b
  simp only [subLit] at b1
  cases b1 with
  | bi t e1 e2 => exact absurd e1 (not_bi h.heads θ)
  | node m t l e1 =>
  have hv := h4 (.node m (q.sub θ) l) (by simp)
  cases hv with
  | node g1 g2 g3 g4 =>
  obtain ⟨φ, e2, rfl⟩ := g2
  refine ⟨θ, φ, m, _, a, _, l, b, rfl, ?_, rfl, rfl, g1, ?_, e2.symm, a1, g3, b2, fun d hd => h4 d (by simp [hd]), g4, fun d hd => h4 d (by simp [hd])⟩
  · rw [← a1.length_eq, List.length_map, List.length_take]
    have := (List.getElem?_eq_some_iff.1 h.goal).1
    omega
  · have hm := List.mem_of_getElem? g1
    refine h.cov _ hm ?_
    obtain ⟨c1, as1, e3, -⟩ := h.user _ hm
    obtain ⟨c2, as2, e4, -⟩ := h.heads
    rw [e3, e4] at e2
    simp only [Tm.sub, subL, Tm.app.injEq, List.cons.injEq, Tm.con.injEq] at e2
    simp only [e3, e4, hfn, e2.1]

theorem Step.forward (h : Step ops c r q) : ∀ (N : Nat) (d : Tree W), d.size ≤ N → Valid ops c.old d → Good1 ops c d
  | _, .const k, _, _ => ⟨.const k, rfl, .const k, .const k, rfl⟩
  | _, .bi t, _, _ => ⟨.bi t, rfl, .bi t, .bi t, rfl⟩
  | 0, .node _ _ _, hN, _ => by simp [Tree.size] at hN
  | N + 1, .node n x ks, hN, hv => by
    have ih := Step.forward h N
    simp only [Tree.size] at hN
    by_cases hn : n = c.i
    · subst hn
      obtain ⟨θ, φ, m, s, a, y, l, b, rfl, ha, rfl, rfl, hs, -, he, f1, f2, f3, v1, v2, v3⟩ := h.top hv
      obtain ⟨t, ht⟩ := h.adds.all (s, m) (by rw [List.mem_zipIdx_iff_getElem?]; exact hs) ⟨θ, φ, he⟩
      obtain ⟨u, hu⟩ := List.mem_iff_getElem?.1 ht
      obtain ⟨s', m', e1, e2, e3⟩ := h.adds.each _ ht
      obtain rfl := Option.some.inj e1
      rw [List.mem_zipIdx_iff_getElem?] at e2
      obtain rfl := Option.some.inj (hs.symm.trans e2)
      obtain ⟨ks', k1, k2, k3, k4⟩ := trL_good (ops := ops) (c := c) (ks := a ++ l ++ b) (by
        intro d hd
        simp only [List.mem_append] at hd
        simp only [sizeL_append, sizeL, Tree.size] at hN
        rcases hd with (hd | hd) | hd
        · exact ih d (by have := size_mem hd; omega) (v1 d hd)
        · exact ih d (by have := size_mem hd; omega) (v2 d hd)
        · exact ih d (by have := size_mem hd; omega) (v3 d hd))
      refine ⟨.node (c.kept.length + u) (r.head.sub θ) ks', ?_, ?_, .node _ _ _ _ _, ?_⟩
      · simp only [tr, if_true, ← ha, trAt_eq, k1, Option.map_some]
        rw [(h.def2new_iff (m := m) (I := c.kept.length + u)).2 ⟨u, t, rfl, hu⟩]
        rfl
      · refine .node (r := t) ?_ ((e3 _ _).2 ⟨θ, φ, he, rfl, rfl⟩) (fits_all (List.rel_append (List.rel_append f1 f2) f3) k3) k2
        rw [Cfg.new, List.getElem?_append_right (by omega), List.getElem?_map]
        simp [hu]
      · simp only [Tree.leaves, k4, leavesL_append, leavesL, List.append_assoc]
    · cases hv with
      | node h1 h2 h3 h4 =>
      rename_i R b
      obtain ⟨ks', k1, k2, k3, k4⟩ := trL_good (ops := ops) (c := c) (ks := ks) (fun d hd =>
        ih d (by have := size_mem hd; omega) (h4 d hd))
      have hRr : R ≠ r := by
        rintro rfl
        obtain ⟨hu1, hu2⟩ := List.getElem?_eq_some_iff.1 h1
        obtain ⟨hv1, hv2⟩ := List.getElem?_eq_some_iff.1 h.rule
        exact hn ((List.Nodup.getElem_inj_iff h.distinct).1 (hu2.trans hv2.symm))
      have hm : R ∈ c.kept := by
        rw [h.kept, List.mem_erase_of_ne hRr]
        exact List.mem_of_getElem? h1
      obtain ⟨I, hI⟩ := List.mem_iff_getElem?.1 hm
      refine ⟨.node I x ks', ?_, ?_, .node _ _ _ _ _, ?_⟩
      · simp only [tr, if_neg hn, h1, k1, (h.idx_iff h1 hn).2 hI, Option.map_some]
      · refine .node (r := R) ?_ h2 (fits_all h3 k3) k2
        rw [Cfg.new, List.getElem?_append_left (List.getElem?_eq_some_iff.1 hI).1, hI]
      · simp only [Tree.leaves, k4]

/-- a tree is the image of a derivation -/
def Hit (ops : Ops) (c : Cfg W) (d' : Tree W) : Prop := ∃ d, Valid ops c.old d ∧ tr c d = some d' ∧ Like d d'

theorem hits {ks' : List (Tree W)} (h : ∀ d ∈ ks', Hit ops c d) :
    ∃ ks, (∀ d ∈ ks, Valid ops c.old d) ∧ trL c ks = some ks' ∧ List.Forall₂ Like ks ks' := by
  induction ks' with
  | nil => exact ⟨[], by simp, rfl, .nil⟩
  | cons d' ks' ih =>
    obtain ⟨d, a1, a2, a3⟩ := h d' (by simp)
    obtain ⟨ks, b1, b2, b3⟩ := ih fun d hd => h d (List.mem_cons_of_mem _ hd)
    refine ⟨d :: ks, ?_, by simp only [trL, a2, b2], .cons a3 b3⟩
    intro e he
    rcases List.mem_cons.1 he with rfl | he
    · exact a1
    · exact b1 e he

theorem Step.backward (h : Step ops c r q) : ∀ (N : Nat) (d' : Tree W), d'.size ≤ N → Valid ops c.new d' → Hit ops c d'
  | _, .const k, _, _ => ⟨.const k, .const k, rfl, .const k⟩
  | _, .bi t, _, _ => ⟨.bi t, .bi t, rfl, .bi t⟩
  | 0, .node _ _ _, hN, _ => by simp [Tree.size] at hN
  | N + 1, .node I x ks', hN, hv => by
    have ih := Step.backward h N
    simp only [Tree.size] at hN
    cases hv with
    | node h1 h2 h3 h4 =>
    rename_i R b
    have hk : ∀ d ∈ ks', Hit ops c d := fun d hd => ih d (by have := size_mem hd; omega) (h4 d hd)
    by_cases hI : I < c.kept.length
    · obtain ⟨ks, a1, a2, a3⟩ := hits hk
      rw [Cfg.new, List.getElem?_append_left hI] at h1
      have hm : R ∈ c.kept := List.mem_of_getElem? h1
      have hRr : R ≠ r := by
        rintro rfl
        rw [h.kept] at hm
        exact h.distinct.not_mem_erase hm
      obtain ⟨n, hn⟩ := List.mem_iff_getElem?.1 (List.mem_of_mem_erase (h.kept ▸ hm))
      have hni : n ≠ c.i := by
        rintro rfl
        exact hRr (Option.some.inj (hn.symm.trans h.rule))
      refine ⟨.node n x ks, .node hn h2 (fits_all' h3 a3) a1, ?_, .node _ _ _ _ _⟩
      simp only [tr, if_neg hni, hn, a2, (h.idx_iff hn hni).2 h1, Option.map_some]
    · rw [Cfg.new, List.getElem?_append_right (by omega), List.getElem?_map] at h1
      obtain ⟨o, ho, rfl⟩ := Option.map_eq_some_iff.1 h1
      obtain ⟨s, m, e1, e2, e3⟩ := h.adds.each o (List.mem_of_getElem? ho)
      rw [List.mem_zipIdx_iff_getElem?] at e2
      obtain ⟨θ, φ, e4, rfl, rfl⟩ := (e3 _ _).1 h2
      obtain ⟨l2, b', rfl, f1, f3⟩ := forall2_append_left h3
      obtain ⟨a', l', rfl, f1, f2⟩ := forall2_append_left f1
      obtain ⟨a, a1, a2, a3⟩ := hits (ks' := a') fun d hd => hk d (by simp [hd])
      obtain ⟨l, l1, l2, l3⟩ := hits (ks' := l') fun d hd => hk d (by simp [hd])
      obtain ⟨b, b1, b2, b3⟩ := hits (ks' := b') fun d hd => hk d (by simp [hd])
      have ha : a.length = c.j := by
        rw [a3.length_eq, ← f1.length_eq, List.length_map, List.length_take]
        have := (List.getElem?_eq_some_iff.1 h.goal).1
        omega
      refine ⟨.node c.i (r.head.sub θ) (a ++ .node m (q.sub θ) l :: b), .node h.rule ⟨θ, rfl, rfl⟩ ?_ ?_, ?_, .node _ _ _ _ _⟩
      · rw [h.splitBody, List.map_append, List.map_cons]
        exact List.rel_append (fits_all' f1 a3) (.cons (.node _ _ _ (not_bi h.heads θ)) (fits_all' f3 b3))
      · intro d hd
        simp only [List.mem_append, List.mem_cons] at hd
        rcases hd with hd | rfl | hd
        · exact a1 d hd
        · exact .node (r := s) e2 ⟨φ, e4.symm, rfl⟩ (fits_all' f2 l3) l1
        · exact b1 d hd
      · simp only [tr, if_true, ← ha, trAt_eq, trL_append, a2, l2, b2, Option.map_some]
        rw [(h.def2new_iff (m := m) (I := I)).2 ⟨I - c.kept.length, o.1, by omega, by rw [ho, ← e1]⟩]
        rfl

theorem fits_sub {t t' : Tm} {d : Tree W} (h1 : Fits ops (.sub t) d) (h2 : Fits ops (.sub t') d) : t = t' := by
  generalize e : (Lit.sub t' : Lit W) = l at h2
  cases h1 with
  | bi _ _ _ => cases h2; exact (Lit.sub.inj e).symm
  | node _ _ _ _ => cases h2; exact (Lit.sub.inj e).symm

theorem like_node {n : Nat} {x : Tm} {ks : List (Tree W)} {d : Tree W} (h : Like (.node n x ks) d) : ∃ m ls, d = .node m x ls := by
  cases h; exact ⟨_, _, rfl⟩
theorem like_node' {n : Nat} {x : Tm} {ks : List (Tree W)} {d : Tree W} (h : Like d (.node n x ks)) : ∃ m ls, d = .node m x ls := by
  cases h; exact ⟨_, _, rfl⟩

/-- the children determine the instance of the body -/
theorem fits_det {φ ψ : Nat → Tm} : ∀ {b : List (Lit W)} {ks : List (Tree W)}, List.Forall₂ (Fits ops) (b.map (subLit φ)) ks →
    List.Forall₂ (Fits ops) (b.map (subLit ψ)) ks → ∀ n ∈ bodyVars b, φ n = ψ n
  | [], _, _, _, n, hn => by simp [bodyVars] at hn
  | .val k :: b, _, .cons _ h2, .cons _ g2, n, hn => fits_det h2 g2 n (by simpa [bodyVars, litVars] using hn)
  | .sub t :: b, _, .cons h1 h2, .cons g1 g2, n, hn => by
    simp only [bodyVars, litVars, Finset.mem_union] at hn
    rcases hn with hn | hn
    · have e : t.sub φ = t.sub ψ := by
        exact fits_sub h1 g1
      exact sub_eq_on_vars e n hn
    · exact fits_det h2 g2 n hn

theorem trL_inj {ks ls ks' : List (Tree W)} (h : ∀ d ∈ ks, ∀ e, Valid ops c.old e → ∀ d', tr c d = some d' → tr c e = some d' → d = e)
    (hl : ∀ e ∈ ls, Valid ops c.old e) (h1 : trL c ks = some ks') (h2 : trL c ls = some ks') : ks = ls := by
  induction ks generalizing ls ks' with
  | nil =>
    simp only [trL, Option.some.injEq] at h1
    subst h1
    cases ls with
    | nil => rfl
    | cons e ls =>
      simp only [trL] at h2
      cases h3 : tr c e <;> cases h4 : trL c ls <;> simp [h3, h4] at h2
  | cons d ks ih =>
    simp only [trL] at h1
    cases h3 : tr c d <;> cases h4 : trL c ks <;> simp only [h3, h4, reduceCtorEq, Option.some.injEq] at h1
    rename_i d' l'
    subst h1
    cases ls with
    | nil => simp [trL] at h2
    | cons e ls =>
      simp only [trL] at h2
      cases h5 : tr c e <;> cases h6 : trL c ls <;> simp only [h5, h6, reduceCtorEq, Option.some.injEq, List.cons.injEq] at h2
      obtain ⟨rfl, rfl⟩ := h2
      rw [h d (by simp) e (hl e (by simp)) _ h3 h5,
        ih (fun d hd => h d (List.mem_cons_of_mem _ hd)) (fun e he => hl e (List.mem_cons_of_mem _ he)) h4 h6]

theorem Step.injective (h : Step ops c r q) : ∀ (N : Nat) (d : Tree W), d.size ≤ N → Valid ops c.old d →
    ∀ e, Valid ops c.old e → ∀ d', tr c d = some d' → tr c e = some d' → d = e
  | _, .const k, _, _, e, _, d', h1, h2 => by
    simp only [tr, Option.some.injEq] at h1
    subst h1
    obtain ⟨d2, e1, _, e2, _⟩ := h.forward _ e (le_refl _) ‹_›
    obtain rfl := Option.some.inj (h2.symm.trans e1)
    cases e2; rfl
  | _, .bi t, _, _, e, _, d', h1, h2 => by
    simp only [tr, Option.some.injEq] at h1
    subst h1
    obtain ⟨d2, e1, _, e2, _⟩ := h.forward _ e (le_refl _) ‹_›
    obtain rfl := Option.some.inj (h2.symm.trans e1)
    cases e2; rfl
  | 0, .node _ _ _, hN, _, _, _, _, _, _ => by simp [Tree.size] at hN
  | N + 1, .node n x ks, hN, hv, e, hw, d', h1, h2 => by
    have ih := Step.injective h N
    simp only [Tree.size] at hN
    obtain ⟨d1, a1, _, a2, _⟩ := h.forward _ _ (le_refl _) hv
    obtain rfl := Option.some.inj (h1.symm.trans a1)
    obtain ⟨d2, b1, _, b2, _⟩ := h.forward _ _ (le_refl _) hw
    obtain rfl := Option.some.inj (h2.symm.trans b1)
    obtain ⟨I, ks', rfl⟩ := like_node a2
    obtain ⟨n2, ls, rfl⟩ := like_node' b2
    -- the number of the new rule tells the unfolded rule from the others
    have num : ∀ {n : Nat} {ks : List (Tree W)}, n ≠ c.i → Valid ops c.old (.node n x ks) → tr c (.node n x ks) = some (.node I x ks') →
        (∃ R, c.old[n]? = some R ∧ c.kept[I]? = some R) ∧ trL c ks = some ks' := by
      intro n ks hn hv ht
      cases hv with
      | node g1 g2 g3 g4 =>
      simp only [tr, if_neg hn, g1] at ht
      cases hk : trL c ks with
      | none => simp [hk] at ht
      | some l =>
        simp only [hk] at ht
        obtain ⟨J, hJ, e⟩ := Option.map_eq_some_iff.1 ht
        simp only [Tree.node.injEq, true_and] at e
        obtain ⟨rfl, rfl⟩ := e
        exact ⟨⟨_, g1, (h.idx_iff g1 hn).1 hJ⟩, rfl⟩
    have num' : ∀ {a l b : List (Tree W)} {m : Nat} {y : Tm}, a.length = c.j →
        tr c (.node c.i x (a ++ .node m y l :: b)) = some (.node I x ks') →
        (∃ u t, I = c.kept.length + u ∧ c.out[u]? = some (t, some m)) ∧ trL c (a ++ l ++ b) = some ks' := by
      intro a l b m y ha ht
      simp only [tr, if_true, ← ha, trAt_eq] at ht
      cases hk : trL c (a ++ l ++ b) with
      | none => simp only [hk, Option.map_none, reduceCtorEq] at ht
      | some z =>
        simp only [hk, Option.map_some] at ht
        obtain ⟨J, hJ, e⟩ := Option.map_eq_some_iff.1 ht
        simp only [Tree.node.injEq, true_and] at e
        obtain ⟨rfl, rfl⟩ := e
        exact ⟨h.def2new_iff.1 hJ, rfl⟩
    by_cases hn : n = c.i <;> by_cases hn2 : n2 = c.i
    · subst hn
      subst hn2
      obtain ⟨θ, φ, m, s, a, y, l, b, rfl, ha, -, rfl, hs, hc, he, f1, f2, f3, v1, v2, v3⟩ := h.top hv
      obtain ⟨θ', φ', m', s', a', y', l', b', rfl, ha', -, rfl, hs', hc', he', f1', f2', f3', v1', v2', v3'⟩ := h.top hw
      obtain ⟨⟨u, t, e1, e2⟩, k1⟩ := num' ha h1
      obtain ⟨⟨u', t', e1', e2'⟩, k1'⟩ := num' ha' h2
      obtain rfl : u = u' := by omega
      obtain rfl : m = m' := by
        have := e2.symm.trans e2'
        simpa using (congrArg Prod.snd (Option.some.inj this))
      obtain rfl := Option.some.inj (hs.symm.trans hs')
      have hk : a ++ l ++ b = a' ++ l' ++ b' := by
        refine trL_inj (ops := ops) ?_ ?_ k1 k1'
        · intro d hd
          simp only [List.mem_append] at hd
          simp only [sizeL_append, sizeL, Tree.size] at hN
          rcases hd with (hd | hd) | hd
          · exact ih d (by have := size_mem hd; omega) (v1 d hd)
          · exact ih d (by have := size_mem hd; omega) (v2 d hd)
          · exact ih d (by have := size_mem hd; omega) (v3 d hd)
        · intro d hd
          simp only [List.mem_append] at hd
          rcases hd with (hd | hd) | hd
          · exact v1' d hd
          · exact v2' d hd
          · exact v3' d hd
      have hl : l.length = l'.length := by
        rw [← f2.length_eq, ← f2'.length_eq, List.length_map, List.length_map]
      obtain ⟨hal, rfl⟩ := List.append_inj hk (by simp [ha, ha', hl])
      obtain ⟨rfl, rfl⟩ := List.append_inj hal (ha.trans ha'.symm)
      have : s.head.sub φ = s.head.sub φ' := sub_congr fun n hn => fits_det f2 f2' n (hc hn)
      rw [← he, ← he', this]
    · subst hn
      obtain ⟨θ, φ, m, s, a, y, l, b, rfl, ha, -⟩ := h.top hv
      obtain ⟨⟨u, t, e1, -⟩, -⟩ := num' ha h1
      obtain ⟨⟨R, -, e2⟩, -⟩ := num hn2 hw h2
      have := (List.getElem?_eq_some_iff.1 e2).1
      omega
    · subst hn2
      obtain ⟨θ, φ, m, s, a, y, l, b, rfl, ha, -⟩ := h.top hw
      obtain ⟨⟨u, t, e1, -⟩, -⟩ := num' ha h2
      obtain ⟨⟨R, -, e2⟩, -⟩ := num hn hv h1
      have := (List.getElem?_eq_some_iff.1 e2).1
      omega
    · obtain ⟨⟨R, e1, e2⟩, k1⟩ := num hn hv h1
      obtain ⟨⟨R', e1', e2'⟩, k1'⟩ := num hn2 hw h2
      obtain rfl := Option.some.inj (e2.symm.trans e2')
      obtain ⟨hu1, hu2⟩ := List.getElem?_eq_some_iff.1 e1
      obtain ⟨hv1, hv2⟩ := List.getElem?_eq_some_iff.1 e1'
      obtain rfl := (List.Nodup.getElem_inj_iff h.distinct).1 (hu2.trans hv2.symm)
      cases hv with
      | node g1 g2 g3 g4 =>
      cases hw with
      | node g1' g2' g3' g4' =>
      rw [trL_inj (ops := ops) (fun d hd => ih d (by have := size_mem hd; omega) (g4 d hd)) g4' k1 k1']

end

theorem Ok.step {ops : Ops} {k : Nat} {p : Prog W} {i j : Nat} {r : WRule W} {q : Tm} (h : Ok ops k p i j r q) (inf : W) :
    ∃ c, Evt (fun f => cfg f ops inf k p i j = some c) ∧ (∃ k', Evt fun f => unfold f ops inf k p p i j = some (c.new, ⟨c.out, k'⟩, .done)) ∧
      c.old = p.rules ∧ Step ops c r q := by
  obtain ⟨out, k', h1, h2⟩ := unfold_adds h inf
  refine ⟨⟨i, j, p.rules, p.rules.erase r, out⟩, h1.mono fun f e => ?_, ⟨k', h1.mono fun f e => e⟩, rfl,
    ⟨h.rule, h.goal, rfl, h.distinct, h.user, h.heads, h.covered, h2⟩⟩
  simp only [cfg, e, h.rule]

/-! ### C71 -/

/-- **C71 (bijection).**  Let the program have pairwise different rules, the unfolded subgoal be no builtin, and no
definition of it have a variable in its head that is missing from its body.  Then unfolding succeeds, and mapping
derivations never fails, takes every derivation of the program to a derivation of the new program, for the
same item and with the same values at its leaves in the same order, takes different derivations to different ones,
and reaches every derivation of the new program. -/
theorem C71_bijection {ops : Ops} {k : Nat} {p : Prog W} {i j : Nat} {r : WRule W} {q : Tm} (h : Ok ops k p i j r q) (inf : W) :
    ∃ c new st, Evt (fun f => cfg f ops inf k p i j = some c) ∧ Evt (fun f => unfold f ops inf k p p i j = some (new, st, .done)) ∧
      (∀ d, Valid ops p.rules d → ∃ d', tr c d = some d' ∧ Valid ops new d' ∧ Like d d' ∧ d'.leaves = d.leaves) ∧
      (∀ d e d', Valid ops p.rules d → Valid ops p.rules e → tr c d = some d' → tr c e = some d' → d = e) ∧
      (∀ d', Valid ops new d' → ∃ d, Valid ops p.rules d ∧ tr c d = some d') := by
  obtain ⟨c, h1, ⟨k', h2⟩, h3, h4⟩ := h.step inf
  refine ⟨c, c.new, _, h1, h2, ?_, ?_, ?_⟩
  · intro d hd
    exact h4.forward _ d (le_refl _) (h3 ▸ hd)
  · intro d e d' hd he a b
    exact h4.injective _ d (le_refl _) (h3 ▸ hd) e (h3 ▸ he) d' a b
  · intro d' hd
    obtain ⟨d, a, b, _⟩ := h4.backward _ d' (le_refl _) hd
    exact ⟨d, h3 ▸ a, b⟩

/-- the value of a derivation: the product of the values of its children in order; `v` is the value of a constant, and a builtin
counts as `one` -/
inductive Val {M : Type} [Monoid M] (v : W → M) : Tree W → M → Prop
  | const (c : W) : Val v (.const c) (v c)
  | bi (t : Tm) : Val v (.bi t) (v 1)
  | node (i : Nat) (x : Tm) (ks : List (Tree W)) (ms : List M) : List.Forall₂ (Val v) ks ms → Val v (.node i x ks) ms.prod

theorem val_leaves {M : Type} [Monoid M] {v : W → M} : ∀ (n : Nat) (d : Tree W), sizeOf d ≤ n → ∀ m, Val v d m ↔ m = (d.leaves.map v).prod := by
  intro n
  induction n with
  | zero => intro d h; cases d <;> simp at h
  | succ n ih =>
    intro d h m
    cases d with
    | const c =>
      constructor
      · rintro ⟨⟩; simp [Tree.leaves]
      · rintro rfl; simpa [Tree.leaves] using Val.const c
    | bi t =>
      constructor
      · rintro ⟨⟩; simp [Tree.leaves]
      · rintro rfl; simpa [Tree.leaves] using Val.bi t
    | node i x ks =>
      have hk : ∀ ks : List (Tree W), sizeOf ks ≤ n → ∀ ms, List.Forall₂ (Val v) ks ms → ms.prod = ((leavesL ks).map v).prod := by
        intro ks
        induction ks with
        | nil => rintro _ ms ⟨⟩; simp [leavesL]
        | cons d ks ihk =>
          rintro hs ms (_ | ⟨h1, h2⟩)
          simp only [List.cons.sizeOf_spec] at hs
          rw [List.prod_cons, (ih d (by omega) _).1 h1, ihk (by omega) _ h2]
          simp [leavesL]
      have he : ∀ ks : List (Tree W), sizeOf ks ≤ n → ∃ ms, List.Forall₂ (Val v) ks ms := by
        intro ks
        induction ks with
        | nil => exact fun _ => ⟨[], .nil⟩
        | cons d ks ihk =>
          intro hs
          simp only [List.cons.sizeOf_spec] at hs
          obtain ⟨ms, h2⟩ := ihk (by omega)
          exact ⟨_ :: ms, .cons ((ih d (by omega) _).2 rfl) h2⟩
      simp only [Tree.node.sizeOf_spec] at h
      rw [Tree.leaves]
      constructor
      · intro hv
        cases hv with
        | node _ _ _ ms hF => exact hk ks (by omega) ms hF
      · rintro rfl
        obtain ⟨ms, hF⟩ := he ks (by omega)
        rw [← hk ks (by omega) ms hF]
        exact .node _ _ _ _ hF

/-- **C71 (values).**  Corresponding derivations have the same value, in any monoid of values, not just a commutative one. -/
theorem C71_value {M : Type} [Monoid M] (v : W → M) {ops : Ops} {k : Nat} {p : Prog W} {i j : Nat} {r : WRule W} {q : Tm}
    (h : Ok ops k p i j r q) (inf : W) :
    ∃ c, Evt (fun f => cfg f ops inf k p i j = some c) ∧ ∀ d d', Valid ops p.rules d → tr c d = some d' →
      ∃ m, Val v d m ∧ ∀ m', Val v d' m' ↔ m' = m := by
  obtain ⟨c, h1, -, h3, h4⟩ := h.step inf
  refine ⟨c, h1, fun d d' hd ht => ⟨_, (val_leaves _ d (le_refl _) _).2 rfl, fun m' => ?_⟩⟩
  obtain ⟨d2, e1, _, _, e2⟩ := h4.forward _ d (le_refl _) (h3 ▸ hd)
  obtain rfl := Option.some.inj (ht.symm.trans e1)
  rw [val_leaves _ d' (le_refl _), e2]

mutual
theorem tr_size {c : Cfg W} : ∀ (d d' : Tree W), tr c d = some d' → d'.size ≤ d.size
  | .const k, d', h => by simp only [tr, Option.some.injEq] at h; subst h; exact le_refl _
  | .bi t, d', h => by simp only [tr, Option.some.injEq] at h; subst h; exact le_refl _
  | .node n x ks, d', h => by
    simp only [tr] at h
    split at h
    · split at h
      · rename_i m ks' e
        obtain ⟨I, -, rfl⟩ := Option.map_eq_some_iff.1 h
        have := trAt_size ks _ m ks' e
        simp only [Tree.size]; omega
      · simp at h
    · split at h
      · rename_i R ks' _ e
        obtain ⟨I, -, rfl⟩ := Option.map_eq_some_iff.1 h
        have := trL_size ks ks' e
        simp only [Tree.size]; omega
      · simp at h
theorem trL_size {c : Cfg W} : ∀ (ks ks' : List (Tree W)), trL c ks = some ks' → sizeL ks' ≤ sizeL ks
  | [], ks', h => by simp only [trL, Option.some.injEq] at h; subst h; exact le_refl _
  | d :: ds, ks', h => by
    simp only [trL] at h
    split at h
    · rename_i d' ds' e1 e2
      simp only [Option.some.injEq] at h
      subst h
      have := tr_size d d' e1
      have := trL_size ds ds' e2
      simp only [sizeL]; omega
    · simp at h
theorem trAt_size {c : Cfg W} : ∀ (ks : List (Tree W)) (j m : Nat) (ks' : List (Tree W)), trAt c j ks = some (m, ks') → sizeL ks' < sizeL ks
  | [], j, m, ks', h => by cases j <;> simp [trAt] at h
  | .const _ :: ds, 0, m, ks', h => by simp [trAt] at h
  | .bi _ :: ds, 0, m, ks', h => by simp [trAt] at h
  | .node n y l :: ds, 0, m, ks', h => by
    simp only [trAt] at h
    split at h
    · rename_i l' ds' e1 e2
      simp only [Option.some.injEq, Prod.mk.injEq] at h
      obtain ⟨rfl, rfl⟩ := h
      have := trL_size l l' e1
      have := trL_size ds ds' e2
      simp only [sizeL, sizeL_append, Tree.size]; omega
    · simp at h
  | d :: ds, j + 1, m, ks', h => by
    simp only [trAt] at h
    split at h
    · rename_i d' m' ds' e1 e2
      simp only [Option.some.injEq, Prod.mk.injEq] at h
      obtain ⟨rfl, rfl⟩ := h
      have := tr_size d d' e1
      have := trAt_size ds j m' ds' e2
      simp only [sizeL]; omega
    · simp at h
end

/-- **C71 (size).**  The new derivation has no more nodes than the old one, and fewer if the old one starts with the
unfolded rule. -/
theorem C71_size {c : Cfg W} {d d' : Tree W} (h : tr c d = some d') :
    d'.size ≤ d.size ∧ ∀ x ks, d = .node c.i x ks → d'.size < d.size := by
  refine ⟨tr_size d d' h, ?_⟩
  rintro x ks rfl
  simp only [tr, if_true] at h
  split at h
  · rename_i m ks' e
    obtain ⟨I, -, rfl⟩ := Option.map_eq_some_iff.1 h
    have := trAt_size ks _ m ks' e
    simp only [Tree.size]; omega
  · simp at h

end

/-! ### Cases -/

section Cases

mutual
/-- equality of trees, to compute with -/
def eqT {W : Type} [DecidableEq W] : Tree W → Tree W → Bool
  | .const a, .const b => decide (a = b)
  | .bi a, .bi b => decide (a = b)
  | .node i x ks, .node j y ls => decide (i = j) && decide (x = y) && eqL ks ls
  | _, _ => false
def eqL {W : Type} [DecidableEq W] : List (Tree W) → List (Tree W) → Bool
  | [], [] => true
  | a :: as, b :: bs => eqT a b && eqL as bs
  | _, _ => false
end

/-- `goal(X) += e(X,Y) * f(Y).  f(X) += g(X,Y) * f(Y) * (1 < 2).  f("a") += true.` with facts for `e` and `g` -/
def demoD : Prog TV := ⟨[
  ⟨at' "goal" [.var 0], [.sub (at' "e" [.var 0, .var 1]), .sub (at' "f" [.var 1])]⟩,
  ⟨at' "f" [.var 2], [.sub (at' "g" [.var 2, .var 3]), .sub (at' "f" [.var 3]), .sub (at' "<" [.con (.int 1), .con (.int 2)])]⟩,
  ⟨at' "f" [.con (.str "a")], [.val .t]⟩,
  ⟨at' "e" [.con (.str "c"), .con (.str "b")], [.val .t]⟩,
  ⟨at' "g" [.con (.str "b"), .con (.str "a")], [.val .f]⟩], []⟩

/-- the assumptions of `C71_bijection` hold of unfolding `f(X)` in the recursive rule -/
theorem demoD_ok : Ok ltOps 8 demoD 1 1
    ⟨at' "f" [.var 2], [.sub (at' "g" [.var 2, .var 3]), .sub (at' "f" [.var 3]), .sub (at' "<" [.con (.int 1), .con (.int 2)])]⟩
    (at' "f" [.var 3]) where
  rule := rfl
  goal := rfl
  below := by intro n hn; simp [rvars, bodyVars, litVars] at hn; omega
  heads := by
    intro s hs
    simp [demoD] at hs
    rcases hs with rfl | rfl | rfl | rfl | rfl <;> exact ⟨_, _, rfl, by decide, by decide⟩
  kind := ⟨_, _, rfl, by decide, by decide⟩
  notInput := by intro t ht; simp [demoD] at ht
  user := ⟨_, _, rfl, by decide, by decide⟩
  covered := by
    intro s hs _
    simp [demoD] at hs
    rcases hs with rfl | rfl | rfl | rfl | rfl <;> simp [Covered, bodyVars, litVars, Finset.subset_iff]
  distinct := by decide +kernel

/-- the derivation of `f("b")` -/
def demoTree : Tree TV :=
  .node 1 (at' "f" [.con (.str "b")]) [.node 4 (at' "g" [.con (.str "b"), .con (.str "a")]) [.const .f],
    .node 2 (at' "f" [.con (.str "a")]) [.const .t], .bi (at' "<" [.con (.int 1), .con (.int 2)])]

theorem demoTree_valid : Valid ltOps demoD.rules demoTree := by
  have h1 : Holds ltOps (at' "<" [.con (.int 1), .con (.int 2)]) := ⟨_, _, _, rfl, .inl ⟨_, rfl, by simp, by simp, by decide⟩⟩
  have h2 : IsBi ltOps (at' "<" [.con (.int 1), .con (.int 2)]) := ⟨_, _, _, rfl, .inl (by decide)⟩
  have nb : ∀ f as, f ≠ "<" → f ≠ "=" → ¬ IsBi ltOps (at' f as) := by
    rintro f as hf hf' ⟨c, x, y, e, h⟩
    simp only [Tm.app.injEq, List.cons.injEq, Tm.con.injEq] at e
    obtain ⟨rfl, -⟩ := e
    rcases h with h | h
    · simp [ltOps, hf] at h
    · simp [hf'] at h
  refine .node (r := demoD.rules[1]) rfl ⟨fun n => if n = 2 then .con (.str "b") else .con (.str "a"), rfl, rfl⟩ ?_ ?_
  · exact .cons (.node _ _ _ (nb _ _ (by decide) (by decide))) (.cons (.node _ _ _ (nb _ _ (by decide) (by decide))) (.cons (.bi _ h2 h1) .nil))
  · intro d hd
    simp only [List.mem_cons, List.not_mem_nil, or_false] at hd
    rcases hd with rfl | rfl | rfl
    · refine .node (r := demoD.rules[4]) rfl ⟨.var, rfl, rfl⟩ (.cons (.val _) .nil) ?_
      intro d hd; simp at hd; subst hd; exact .const _
    · refine .node (r := demoD.rules[2]) rfl ⟨.var, rfl, rfl⟩ (.cons (.val _) .nil) ?_
      intro d hd; simp at hd; subst hd; exact .const _
    · exact .bi _

example := C71_bijection demoD_ok .t
example := C71_value (M := FreeMonoid TV) FreeMonoid.of demoD_ok .t

/-- its image: one node fewer, the leaves in the same order; rule 5 of the new program comes from definition 2 -/
example : ((cfg 20 ltOps .t 8 demoD 1 1).bind fun c => tr c demoTree).any (eqT (
  .node 5 (at' "f" [.con (.str "b")]) [.node 3 (at' "g" [.con (.str "b"), .con (.str "a")]) [.const .f],
    .const .t, .bi (at' "<" [.con (.int 1), .con (.int 2)])])) = true := by decide +kernel

/-- `goal += a.  a += 2.  a += 2.` -/
def dupD : Prog Nat := ⟨[⟨at' "goal" [], [.sub (at' "a" [])]⟩, ⟨at' "a" [], [.val 2]⟩, ⟨at' "a" [], [.val 2]⟩], []⟩

/-- **C71 (equal rules are confused).**  With two equal rules, which have two derivations, the mapping takes both derivations to
the same one: `index` finds the first of them. -/
theorem C71_duplicates : ∃ d e : Tree Nat, ¬ d = e ∧ Valid ltOps dupD.rules d ∧ Valid ltOps dupD.rules e ∧
    ∃ c, cfg 20 ltOps (7 : Nat) 4 dupD 0 0 = some c ∧ tr c d = tr c e ∧ (tr c d).isSome := by
  refine ⟨.node 1 (at' "a" []) [.const 2], .node 2 (at' "a" []) [.const 2], by simp, ?_, ?_, ?_⟩
  · exact .node (r := dupD.rules[1]) rfl ⟨.var, rfl, rfl⟩ (.cons (.val _) .nil) (by intro d hd; simp at hd; subst hd; exact .const _)
  · exact .node (r := dupD.rules[2]) rfl ⟨.var, rfl, rfl⟩ (.cons (.val _) .nil) (by intro d hd; simp at hd; subst hd; exact .const _)
  · exact ⟨_, rfl, rfl, rfl⟩

/-- `goal += f(X).  f(X) += 3.` -/
def lostD : Prog Nat := ⟨[⟨at' "goal" [], [.sub (at' "f" [.var 0])]⟩, ⟨at' "f" [.var 1], [.val 3]⟩], []⟩

/-- **C71 (lost variables).**  If a variable is lost, the new rule has an additional factor for which the image has no
child: the image of a derivation is not a derivation of the new program, in no order of the children (the check at
derivations.py:37-40 fails, and so does `reorder_subgoals`). -/
theorem C71_lost : ∃ (d : Tree Nat) (I : Nat) (x : Tm) (ks : List (Tree Nat)) (c : Cfg Nat), Valid ltOps lostD.rules d ∧
    cfg 20 ltOps (7 : Nat) 4 lostD 0 0 = some c ∧ tr c d = some (.node I x ks) ∧ ∀ ls, ls.Perm ks → ¬ Valid ltOps c.new (.node I x ls) := by
  refine ⟨.node 0 (at' "goal" []) [.node 1 (at' "f" [.var 0]) [.const 3]], 1, at' "goal" [], [.const 3], _, ?_, rfl, rfl, ?_⟩
  · refine .node (r := lostD.rules[0]) rfl ⟨.var, rfl, rfl⟩ (.cons (.node _ _ _ ?_) .nil) ?_
    · rintro ⟨c, x, y, e, h⟩
      simp at e
    · intro d hd
      simp at hd
      subst hd
      refine .node (r := lostD.rules[1]) rfl ⟨fun _ => .var 0, rfl, rfl⟩ (.cons (.val _) .nil) ?_
      intro d hd; simp at hd; subst hd; exact .const _
  · intro ls hl hv
    cases hv with
    | node h1 h2 h3 h4 =>
    have hr : (⟨at' "goal" [], [.val 3, .val 7]⟩ : WRule Nat) = _ := Option.some.inj h1
    subst hr
    obtain ⟨θ, -, rfl⟩ := h2
    have := h3.length_eq
    have := hl.length_eq
    simp at *
    omega

end Cases

end DUnfold
end Verif
