/-
Property C95: when the magic program is range-restricted.
-/
import Verif.MagicRange
import Verif.MagicThm

set_option linter.unusedSectionVars false
set_option linter.unusedSimpArgs false

namespace Verif
open Tm

namespace MagicRange
open SolverFor (Which)
open Sem Horn
open Magic (Env magic magicT Exo reorder)
variable {W : Type}

/-! ### Specification -/

/-- every variable of the head is in the body -/
def RR (r : WRule W) : Prop := ∀ n ∈ vars r.head, ∃ t, Lit.sub t ∈ r.body ∧ n ∈ vars t

theorem mem_bv {b : List (Lit W)} {n : Nat} : n ∈ Sem.bodyVars b ↔ ∃ t, Lit.sub t ∈ b ∧ n ∈ vars t := by
  induction b with
  | nil => simp [Sem.bodyVars]
  | cons l b ih =>
    rw [Sem.bodyVars, Finset.mem_union, ih]
    cases l with
    | val k => simp [Sem.litVars]
    | sub t =>
      constructor
      · rintro (h | ⟨u, hu, h⟩)
        · exact ⟨t, by simp, h⟩
        · exact ⟨u, by simp [hu], h⟩
      · rintro ⟨u, hu, h⟩
        rcases List.mem_cons.1 hu with e | hu
        · cases e; exact .inl h
        · exact .inr ⟨u, hu, h⟩

theorem rr_iff {rules : List (WRule W)} : rangeRestricted rules = true ↔ ∀ r ∈ rules, RR r := by
  unfold rangeRestricted
  rw [List.all_eq_true]
  refine forall₂_congr fun r _ => ?_
  rw [decide_eq_true_iff, Finset.sdiff_eq_empty_iff_subset]
  exact forall₂_congr fun n _ => mem_bv

theorem vars_magicT (m : Const) (t : Tm) : vars (magicT m t) = vars t := by simp [magicT]

section
variable {e : Env W} {rules outputs q : List (WRule W)} {c : Nat} {m : Const}

theorem rr_perm {h : Tm} {b o : List (Lit W)} (hp : o.Perm b) : RR ⟨h, o⟩ ↔ RR ⟨h, b⟩ := by
  unfold RR
  simp only [hp.mem_iff]

/-- **C95 (answers).**  The guard binds the variables of the head: every rule of the magic program is range-restricted unless its head is a
demanded item. -/
theorem C95_answers (h : magic e rules outputs c = some (q, m)) {r : WRule W} (hr : r ∈ q) (hh : ∀ t, r.head ≠ magicT m t) : RR r := by
  cases Magic.magic_rules h r hr with
  | out ho hb => exact absurd rfl (hh _)
  | ans hr ho => exact fun n hn => ⟨_, List.mem_cons_self, by rw [vars_magicT]; exact hn⟩
  | dem hr ho => exact absurd rfl (hh _)

/-- **C95 (exactly).**  The magic program is range-restricted just if the outputs are, and in every rule, in the order that was chosen, each
subgoal that is demanded has only variables of the head and of the elements before it. -/
theorem C95_exact (h : magic e rules outputs c = some (q, m)) : rangeRestricted q = true ↔ (∀ o ∈ outputs, RR o) ∧
    ∀ r ∈ rules, ∀ pre t post, reorder e r.body (vars r.head) = some (pre ++ .sub t :: post) → ¬ Exo e.sig e.inputs t →
      ∀ n ∈ vars t, n ∈ vars r.head ∨ ∃ u, Lit.sub u ∈ pre ∧ n ∈ vars u := by
  rw [rr_iff]
  obtain ⟨_, a, b, h1, h2, rfl⟩ := Magic.magic_inv h
  constructor
  · intro hq
    refine ⟨fun o ho n hn => ?_, fun r hr pre t post ho hx n hn => ?_⟩
    · obtain ⟨b', hb⟩ := Magic.reorder_outRules h1 o ho
      have := hq ⟨magicT m o.head, b'⟩ (List.mem_append_left _ ((Magic.mem_outRules h1 _).2 ⟨o, ho, b', hb, rfl⟩))
      exact (rr_perm (Magic.reorder_perm hb)).1 this n (by rw [vars_magicT]; exact hn)
    · have := hq ⟨magicT m t, .sub (magicT m r.head) :: pre⟩ (List.mem_append_right _ ((Magic.mem_ruleRules h2 _).2
        ⟨r, hr, _, ho, .inr ⟨pre, t, post, rfl, hx, rfl⟩⟩))
      obtain ⟨u, hu, hn⟩ := this n (by rw [vars_magicT]; exact hn)
      rcases List.mem_cons.1 hu with e | hu
      · cases e; rw [vars_magicT] at hn; exact .inl hn
      · exact .inr ⟨u, hu, hn⟩
  · rintro ⟨ho, hr⟩ s hs
    rcases List.mem_append.1 hs with hs | hs
    · obtain ⟨o, hom, b', hb, rfl⟩ := (Magic.mem_outRules h1 _).1 hs
      intro n hn
      rw [vars_magicT] at hn
      exact (rr_perm (h := o.head) (Magic.reorder_perm hb)).2 (ho o hom) n hn
    · obtain ⟨r, hrm, o, hor, rfl | ⟨l1, t, l2, rfl, hx, rfl⟩⟩ := (Magic.mem_ruleRules h2 _).1 hs
      · exact fun n hn => ⟨_, List.mem_cons_self, by rw [vars_magicT]; exact hn⟩
      · intro n hn
        rw [vars_magicT] at hn
        rcases hr r hrm l1 t l2 hor hx n hn with hn | ⟨u, hu, hn⟩
        · exact ⟨_, List.mem_cons_self, by rw [vars_magicT]; exact hn⟩
        · exact ⟨u, List.mem_cons_of_mem _ hu, hn⟩

theorem fast_sub {sig fv cv f k} {inputs os : List Tm} {q' : List (WRule W)} (h : Prune.Fast sig fv cv f k q' inputs os q) : ∀ r ∈ q, r ∈ q' := by
  obtain ⟨_, _, _, _, _, _, bs, _, _, _, rfl⟩ := h
  intro r hr
  obtain ⟨⟨b, r'⟩, hp, rfl⟩ := List.mem_map.1 hr
  exact (List.of_mem_zip (List.mem_filter.1 hp).1).2

/-- **C95 (pass 1).**  Whatever the order: if the outputs are range-restricted and demanded subgoals have only variables of their rule's head,
then pass 1 of `scc_solver(magic=True)` uses solver 1, even if the program itself is not range-restricted.  `q` is the result of `magic_templates`,
pruned. -/
theorem C95_solver1 {fv cv : Nat → Nat} {f k : Nat} (h : Magic.Templates e fv cv f k rules outputs c q m) (ho : ∀ o ∈ outputs, RR o)
    (hr : ∀ r ∈ rules, ∀ t, Lit.sub t ∈ r.body → ¬ Exo e.sig e.inputs t → vars t ⊆ vars r.head) :
    (passes true rules q none).1 = .solver1 := by
  obtain ⟨q', h1, h2⟩ := h
  have : rangeRestricted q' = true := by
    refine (C95_exact h1).2 ⟨ho, fun r hrm pre t post e1 hx n hn => .inl (hr r hrm t ?_ hx hn)⟩
    exact (Magic.reorder_perm e1).mem_iff.1 (by simp)
  have : rangeRestricted q = true := rr_iff.2 fun r hr => rr_iff.1 this r (fast_sub h2 r hr)
  simp [passes, pick, this]

/-- **C95 (local variables).**  Whatever the order: if a demanded subgoal that occurs once in its rule has a variable that is nowhere else in the
rule, then the magic program, before it is pruned, is not range-restricted, and solver 2 is the choice for it. -/
theorem C95_solver2 (h : magic e rules outputs c = some (q, m)) {r : WRule W} (hr : r ∈ rules) {l1 l2 : List (Lit W)} {t : Tm}
    (hb : r.body = l1 ++ .sub t :: l2) (hx : ¬ Exo e.sig e.inputs t) {n : Nat} (hn : n ∈ vars t) (hh : n ∉ vars r.head)
    (hl : ∀ u, Lit.sub u ∈ l1 ++ l2 → n ∉ vars u) : (passes true rules q none).1 = .solver2 := by
  have : ¬ rangeRestricted q = true := by
    intro hq
    obtain ⟨_, hq⟩ := (C95_exact h).1 hq
    obtain ⟨_, a, b, h1, h2, _⟩ := Magic.magic_inv h
    obtain ⟨o, ho⟩ := Magic.reorder_ruleRules h2 r hr
    have hp := Magic.reorder_perm ho
    have hm : Lit.sub t ∈ o := hp.mem_iff.2 (by simp [hb])
    obtain ⟨pre, post, rfl⟩ := List.append_of_mem hm
    have hp2 : (pre ++ post).Perm (l1 ++ l2) := by
      have h1 := (List.perm_middle (a := Lit.sub t) (l₁ := pre) (l₂ := post)).symm.trans (hb ▸ hp)
      exact (List.perm_cons _).1 (h1.trans List.perm_middle)
    rcases hq r hr pre t post ho hx n hn with h3 | ⟨u, hu, h3⟩
    · exact hh h3
    · exact hl u (hp2.mem_iff.1 (by simp [hu])) h3
  simp [passes, pick, this]

/-- **C95 (pass 2).**  Pass 2 goes by the program, not by the magic program; a solver that the caller names is used in both passes. -/
theorem C95_pass2 (b : Bool) (bound : List (WRule W)) : ((passes b rules bound none).2 = .solver1 ↔ ∀ r ∈ rules, RR r) ∧
    ∀ w, passes b rules bound (some w) = (w, w) := by
  refine ⟨?_, fun w => rfl⟩
  rw [← rr_iff]
  simp only [passes, pick]
  split <;> simp_all

end

section Examples
open Unfold (at')
open Magic (n demoS)

-- `p(X,Y) += q(X). q(X) += r(X). ` with outputs `p(1,2)`: solver 1 for the magic program, solver 2 for the program
private def wideP : List (WRule TV) := [⟨at' "p" [.var 0, .var 1], [.sub (at' "q" [.var 0])]⟩, ⟨at' "q" [.var 0], [.sub (at' "r" [.var 0])]⟩]
private def env : Env TV := ⟨demoS, 20, [at' "r" [.var 10]], fun _ => false⟩
example : ((magic env wideP [⟨at' "p" [n 1, n 2], []⟩] 0).map fun q => passes true wideP q.1 none) = some (.solver1, .solver2) := by decide +kernel

private def projP : List (WRule TV) := [⟨at' "goal" [], [.sub (at' "q" [.var 0])]⟩, ⟨at' "q" [.var 0], [.sub (at' "r" [.var 0])]⟩]

theorem proj_named : ∀ r ∈ projP ++ [⟨at' "goal" [], []⟩], Magic.FullyNamed r := by
  intro r hr
  simp only [projP, List.cons_append, List.nil_append, List.mem_cons, List.not_mem_nil, or_false] at hr
  have hv : ∀ (f : String) (as : List Tm), (∀ a ∈ as, Order.Named a) → Order.Named (at' f as) := fun f as h => .app _ _ h
  rcases hr with rfl | rfl | rfl <;> refine ⟨⟨⟨_, _, rfl⟩, fun t ht => ?_⟩, hv _ _ ?_, fun t ht => ?_⟩ <;>
    first
    | (simp only [List.not_mem_nil] at ht; done)
    | (simp only [List.mem_cons, Lit.sub.injEq, List.not_mem_nil, or_false] at ht
       subst ht; first | exact ⟨_, _, rfl⟩ | (refine hv _ _ ?_; simp [Order.Named.var, Order.Named.con]))
    | simp [Order.Named.var]

theorem proj_setup : Magic.Setup demoS [at' "r" [.var 10]] projP where
  named r hr := (proj_named r (List.mem_append_left _ hr)).rule
  endo r hr t ht hx s hs θ φ e := by
    have h1 : hfn t = some (.str "r") := by
      simp only [projP, List.mem_cons, List.not_mem_nil, or_false] at hr
      rcases hr with rfl | rfl <;> simp only [List.mem_cons, Lit.sub.injEq, List.not_mem_nil, or_false] at ht <;> subst ht
      · rcases hx with hx | ⟨i, hi, ψ, e⟩
        · simp [Linearize.isBuiltin, demoS] at hx
        · simp only [List.mem_singleton] at hi
          subst hi
          simp [at'] at e
      · rfl
    have hn := (proj_named r (List.mem_append_left _ hr)).rule.body t ht
    have hm := (proj_named s (List.mem_append_left _ hs)).rule.head
    have h2 : hfn t = hfn s.head := by rw [← hfn_gsub hn θ, ← hfn_gsub hm φ, e]
    simp only [projP, List.mem_cons, List.not_mem_nil, or_false] at hs
    rcases hs with rfl | rfl <;> rw [h2] at h1 <;> simp [hfn, at'] at h1

/-- if the pruned magic program is range-restricted, nothing but data, and demands for `goal` and `r`, can be derived -/
theorem proj_dead {e : Env TV} {o q q' : List (WRule TV)} {m : Const} (hm : m = .str "$magic1") (ho : o = [⟨at' "goal" [], []⟩])
    (h : magic e projP o 0 = some (q', m)) (hq : ∀ r ∈ q, r ∈ q') (hr : rangeRestricted q = true) {d : GTm → Prop}
    (hd : ∀ x, d x → hfn x.1 = some (.str "r")) {x : GTm} (hx : Der (· = TV.t) q d x) :
    (∃ y, x = Magic.wrap m y ∧ hfn y.1 ≠ some (.str "q")) ∨ hfn x.1 = some (.str "r") := by
  induction hx with
  | data h => exact .inr (hd _ h)
  | @rule r hrm θ hw hb ih =>
    have hrr := rr_iff.1 hr r hrm
    have hmr := Magic.magic_rules h r (hq r hrm)
    clear hrm
    cases hmr with
    | @out o' ho' b hb' =>
      rw [ho, List.mem_singleton] at ho'
      subst ho'
      exact .inl ⟨_, Magic.gsub_magicT m θ _, by simp [gsub, hfn, at']⟩
    | @ans r' hr' b hb' =>
      simp only [projP, List.mem_cons, List.not_mem_nil, or_false] at hr'
      rcases hr' with rfl | rfl
      · rcases ih (at' "q" [.var 0]) (List.mem_cons_of_mem _ (hb'.mem_iff.2 (by simp))) with ⟨y, hy, _⟩ | h1
        · have := congrArg (fun z : GTm => hfn z.1) hy
          simp [gsub, hfn, at', Magic.wrap, magicT, hm] at this
        · simp [gsub, hfn, at'] at h1
      · rcases ih (magicT m (at' "q" [.var 0])) List.mem_cons_self with ⟨y, hy, h1⟩ | h1
        · rw [Magic.gsub_magicT] at hy
          rw [← Magic.wrap_inj hy] at h1
          simp [gsub, hfn, at'] at h1
        · simp [gsub, hfn, magicT, hm] at h1
    | @dem r' hr' l1 l2 t ho' =>
      simp only [projP, List.mem_cons, List.not_mem_nil, or_false] at hr'
      rcases hr' with rfl | rfl
      · have e1 := List.perm_singleton.1 ho'
        have hl : l1 = [] := by
          have := congrArg List.length e1
          simp at this
          exact List.length_eq_zero_iff.1 (by omega)
        subst hl
        simp only [List.nil_append, List.cons.injEq, Lit.sub.injEq] at e1
        obtain ⟨rfl, _⟩ := e1
        obtain ⟨u, hu, hn⟩ := hrr 0 (by rw [vars_magicT]; simp [at'])
        simp only [List.mem_cons, Lit.sub.injEq, List.not_mem_nil, or_false] at hu
        subst hu
        simp [magicT, at'] at hn
      · have e1 := List.perm_singleton.1 ho'
        have : Lit.sub t ∈ l1 ++ .sub t :: l2 := by simp
        rw [e1] at this
        simp only [List.mem_cons, Lit.sub.injEq, List.not_mem_nil, or_false] at this
        subst this
        exact .inl ⟨_, Magic.gsub_magicT m θ _, by simp [gsub, hfn, at']⟩

/-- **C95 (not always).**  A comment in `scc_solver` (978-979) says that the magic program is range-restricted.  For `goal += q(X). q(X) += r(X).`
with input `r(_)` and output `goal` it is not, though the program and the output are; no pruning can change that, as `goal` would be lost.  Pass 1 uses
solver 2 and pass 2 solver 1. -/
theorem C95_not_always : ∃ (p o : List (WRule TV)) (sig : Linearize.Sigs) (inputs : List Tm), rangeRestricted p = true ∧ rangeRestricted o = true ∧
    ∀ leaf k, ∃ f g q m, Magic.Templates ⟨sig, f, inputs, leaf⟩ (fun i => 2 * i) (fun i => 2 * i + 1) g k p o 0 q m ∧
      rangeRestricted q = false ∧ passes true p q none = (.solver2, .solver1) := by
  refine ⟨projP, [⟨at' "goal" [], []⟩], demoS, [at' "r" [.var 10]], by decide +kernel, by decide +kernel, fun leaf k => ?_⟩
  have hm : Magic.magicName (0 + 1) = .str "$magic1" := by decide +kernel
  obtain ⟨f, g, q, h⟩ : ∃ f g q, Magic.Templates ⟨demoS, f, [at' "r" [.var 10]], leaf⟩ (fun i => 2 * i) (fun i => 2 * i + 1) g k projP
      [⟨at' "goal" [], []⟩] 0 q (Magic.magicName (0 + 1)) := by
    obtain ⟨f, h⟩ := (Magic.C57_returns (leaf := leaf) (sig := demoS) (inputs := [at' "r" [.var 10]]) (fv := fun i => 2 * i) (cv := fun i => 2 * i + 1) (k := k) (c := 0)
      (rules := projP) (outputs := [⟨at' "goal" [], []⟩]) (by decide +kernel) (by decide +kernel) (by decide +kernel) (by decide +kernel) (by decide +kernel)).exists'
    obtain ⟨g, h⟩ := h.exists'
    exact ⟨f, g, h⟩
  have hnr : rangeRestricted q = false := by
    rw [← Bool.not_eq_true]
    intro hr
    have hder : Der (· = TV.t) projP (fun x => x.1 = at' "r" [n 1]) (gsub (fun _ => ⟨n 1, by simp [n, Ground]⟩) (at' "goal" [])) := by
      refine .rule (r := projP[0]) (by simp [projP]) (fun _ => ⟨n 1, by simp [n, Ground]⟩) (by simp [projP]) fun t ht => ?_
      simp only [projP, List.getElem_cons_zero, List.mem_cons, Lit.sub.injEq, List.not_mem_nil, or_false] at ht
      subst ht
      refine .rule (r := projP[1]) (by simp [projP]) (fun _ => ⟨n 1, by simp [n, Ground]⟩) (by simp [projP]) fun t ht => ?_
      simp only [projP, List.getElem_cons_succ, List.getElem_cons_zero, List.mem_cons, Lit.sub.injEq, List.not_mem_nil, or_false] at ht
      subst ht
      exact .data (by simp [gsub, at'])
    have h2 := (Magic.C57_magic (fun i j h => by simpa using h) (fun i j => by omega) (fun i j h => by simpa using h) h proj_setup (show ∀ r ∈ projP, Linearize.isBuiltin demoS r.head = false by decide +kernel) proj_named
      (by intro t ht; simp only [List.mem_singleton] at ht; subst ht; exact .app _ _ (by simp [Order.Named.var])) (show demoS (Magic.magicName (0 + 1)) 1 = false by decide +kernel) (by decide +kernel)
      (ok := (· = TV.t)) (d := fun x => x.1 = at' "r" [n 1])
      (fun x hx => .inr ⟨_, List.mem_singleton.2 rfl, fun _ => ⟨n 1, by simp [n, Ground]⟩, Subtype.ext (by rw [hx]; simp [gsub, at'])⟩)
      (List.mem_singleton.2 rfl) (θ := fun _ => ⟨n 1, by simp [n, Ground]⟩) ⟨by simp, by simp⟩).2 hder
    obtain ⟨q', h3, h4⟩ := h
    rcases proj_dead hm rfl h3 (fast_sub h4) hr (fun x hx => by rw [hx]; simp [hfn, at']) h2 with ⟨y, hy, _⟩ | h5
    · have := congrArg (fun z : GTm => hfn z.1) hy
      simp [gsub, hfn, at', Magic.wrap, magicT, hm] at this
    · simp [gsub, hfn, at'] at h5
  have hp : rangeRestricted projP = true := by decide +kernel
  exact ⟨f, g, q, _, h, hnr, by simp [passes, pick, hnr, hp]⟩

-- the hypotheses of `C95_solver2`
example : ¬ Exo demoS [at' "r" [.var 10]] (at' "q" [.var 0]) := by
  rintro (h | ⟨i, hi, θ, h⟩)
  · revert h; decide +kernel
  · simp only [List.mem_singleton] at hi
    subst hi
    simp [at'] at h

end Examples
end MagicRange
end Verif
