/-
Property C37: pruning does not change the values of output items.
-/
import Verif.Prune
import Verif.HyperThm
import Verif.GeneralizeThm
import Verif.LinearizeThm

set_option linter.unusedSectionVars false
set_option linter.unusedSimpArgs false

namespace Verif
open Tm Heap
open Sem

namespace Prune
open Hyper
open Linearize (Sigs isBuiltin)
variable {W : Type} [CSemi W]

/-! ### Spec -/

/-- the input data: the item is an instance of a declared input, or a builtin -/
def Data (sig : Sigs) (inputs : List Tm) (d : GTm → W) : Prop :=
  ∀ x, d x ≠ 0 → isBuiltin sig x.1 = true ∨ ∃ t ∈ inputs, ∃ θ, gsub θ t = x

/-- the item is an instance of a declared output -/
def IsOutput (outputs : List Tm) (x : GTm) : Prop := ∃ t ∈ outputs, ∃ θ, gsub θ t = x

/-- heads are not builtins; every head and subgoal has a functor -/
structure Plain (sig : Sigs) (rules : List (WRule W)) : Prop where
  heads : ∀ r ∈ rules, isBuiltin sig r.head = false
  named : ∀ r ∈ rules, NamedRule r

/-! ### When rules can be dropped -/

theorem bv_zero {v : GTm → W} {θ : Nat → GTm} {q : Tm} : ∀ {b : List (Lit W)}, Lit.sub q ∈ b → v (gsub θ q) = 0 → bv v θ b = 0
  | l :: b, h, hz => by
    rw [bv_cons]
    rcases List.mem_cons.1 h with rfl | h
    · simp only [lv, hz, zero_mul]
    · rw [bv_zero h hz, mul_zero]

theorem bv_same {v w : GTm → W} {θ : Nat → GTm} : ∀ {b : List (Lit W)}, (∀ q, Lit.sub q ∈ b → v (gsub θ q) = w (gsub θ q)) → bv v θ b = bv w θ b
  | [], _ => rfl
  | l :: b, h => by
    rw [bv_cons, bv_cons, bv_same (b := b) fun q hq => h q (by simp [hq])]
    cases l with
    | val c => rfl
    | sub q => simp only [lv, h q (by simp)]

section
variable {p : List (WRule W)} {keep : WRule W → Bool} {d : GTm → W} {Der U : GTm → Prop}
  (hd : ∀ x, d x ≠ 0 → Der x)
  (hder : ∀ r ∈ p, ∀ θ, (∀ q, Lit.sub q ∈ r.body → Der (gsub θ q)) → Der (gsub θ r.head))
include hd hder

theorem rounds_zero {p' : List (WRule W)} (hs : ∀ r ∈ p', r ∈ p) : ∀ n x, ¬ Der x → rounds p' d n x = 0
  | 0, x, _ => rfl
  | n + 1, x, hx => by
    show d x + T p' (rounds p' d n) x = 0
    have h1 : d x = 0 := by
      by_contra h; exact hx (hd x h)
    have h2 : ∀ r ∈ p', contrib r (rounds p' d n) x = 0 := by
      intro r hr
      unfold contrib
      refine (isum_congr fun a => ?_).trans isum_zero
      split
      · rename_i e
        have : ¬ ∀ q, Lit.sub q ∈ r.body → Der (gsub (ext a) q) := fun h => hx (e ▸ hder r (hs r hr) _ h)
        push Not at this
        obtain ⟨q, h3, h4⟩ := this
        exact bv_zero h3 (rounds_zero hs n _ h4)
      · rfl
    rw [h1, zero_add]
    unfold T
    exact List.sum_eq_zero fun y hy => by
      obtain ⟨r, hr, rfl⟩ := List.mem_map.1 hy
      exact h2 r hr

/-- if the body of every rule instance that is derivable and below a useful item is useful, and the rule is kept, the
useful items keep their values -/
theorem rounds_keep (hU : ∀ r ∈ p, ∀ θ, U (gsub θ r.head) → (∀ q, Lit.sub q ∈ r.body → Der (gsub θ q)) →
      keep r = true ∧ ∀ q, Lit.sub q ∈ r.body → U (gsub θ q)) :
    ∀ n x, U x → rounds (p.filter keep) d n x = rounds p d n x
  | 0, x, _ => rfl
  | n + 1, x, hx => by
    show d x + T (p.filter keep) (rounds (p.filter keep) d n) x = d x + T p (rounds p d n) x
    congr 1
    have hz : ∀ r ∈ p, ∀ θ q, Lit.sub q ∈ r.body → ¬ Der (gsub θ q) →
        bv (rounds (p.filter keep) d n) θ r.body = 0 ∧ bv (rounds p d n) θ r.body = 0 := fun r hr θ q hq hn =>
      ⟨bv_zero hq (rounds_zero hd hder (fun r hr => (List.mem_filter.1 hr).1) n _ hn), bv_zero hq (rounds_zero hd hder (fun r hr => hr) n _ hn)⟩
    have h1 : ∀ r ∈ p, keep r = true → contrib r (rounds (p.filter keep) d n) x = contrib r (rounds p d n) x := by
      intro r hr _
      unfold contrib
      refine isum_congr fun a => ?_
      split
      · rename_i e
        by_cases h : ∀ q, Lit.sub q ∈ r.body → Der (gsub (ext a) q)
        · have := hU r hr _ (e ▸ hx) h
          exact bv_same fun q hq => rounds_keep hU n _ (this.2 q hq)
        · push Not at h
          obtain ⟨q, h3, h4⟩ := h
          rw [(hz r hr _ q h3 h4).1, (hz r hr _ q h3 h4).2]
      · rfl
    have h2 : ∀ r ∈ p, keep r = false → contrib r (rounds p d n) x = 0 := by
      intro r hr hk
      unfold contrib
      refine (isum_congr fun a => ?_).trans isum_zero
      split
      · rename_i e
        have : ¬ ∀ q, Lit.sub q ∈ r.body → Der (gsub (ext a) q) := fun h => by
          have := (hU r hr _ (e ▸ hx) h).1
          rw [hk] at this; simp at this
        push Not at this
        obtain ⟨q, h3, h4⟩ := this
        exact (hz r hr _ q h3 h4).2
      · rfl
    generalize rounds (p.filter keep) d n = v at h1
    generalize rounds p d n = w at h1 h2
    clear hU hz hd hder
    induction p with
    | nil => rfl
    | cons r p ih =>
      have ih := ih (fun r hr => h1 r (by simp [hr])) (fun r hr => h2 r (by simp [hr]))
      cases hk : keep r with
      | true => rw [List.filter_cons_of_pos hk, T_cons, T_cons, ih, h1 r (by simp) hk]
      | false => rw [List.filter_cons_of_neg (by simp [hk]), T_cons, ih, h2 r (by simp) hk, zero_add]

end

/-! ### Lists of results -/

theorem allSome_mem {α β : Type} {f : α → Option β} : ∀ {l : List α} {bs : List β}, allSome f l = some bs →
    (∀ a ∈ l, ∃ b ∈ bs, f a = some b) ∧ ∀ b ∈ bs, ∃ a ∈ l, f a = some b
  | [], bs, h => by simp [allSome] at h; subst h; simp
  | a :: l, bs, h => by
    rw [allSome] at h
    cases h1 : f a with
    | none => simp [h1] at h
    | some b =>
      cases h2 : allSome f l with
      | none => simp [h1, h2] at h
      | some bs' =>
        simp only [h1, h2, Option.some.injEq] at h
        subst h
        have ih := allSome_mem h2
        refine ⟨fun a' ha' => ?_, fun b' hb' => ?_⟩
        · rcases List.mem_cons.1 ha' with rfl | ha'
          · exact ⟨b, by simp, h1⟩
          · obtain ⟨b', h3, h4⟩ := ih.1 a' ha'; exact ⟨b', by simp [h3], h4⟩
        · rcases List.mem_cons.1 hb' with rfl | hb'
          · exact ⟨a, by simp, h1⟩
          · obtain ⟨a', h3, h4⟩ := ih.2 b' hb'; exact ⟨a', by simp [h3], h4⟩

theorem zip_filter {α β : Type} {f : α → Option β} (P : β → Bool) : ∀ {l : List α} {bs : List β}, allSome f l = some bs →
    ((bs.zip l).filter fun x => P x.1).map Prod.snd = l.filter fun a => (f a).any P
  | [], bs, h => by simp [allSome] at h; subst h; rfl
  | a :: l, bs, h => by
    rw [allSome] at h
    cases h1 : f a with
    | none => simp [h1] at h
    | some b =>
      cases h2 : allSome f l with
      | none => simp [h1, h2] at h
      | some bs' =>
        simp only [h1, h2, Option.some.injEq] at h
        subst h
        have ih := zip_filter P h2
        cases hp : P b with
        | true => simp [List.zip_cons_cons, hp, h1, ih]
        | false => simp [List.zip_cons_cons, hp, h1, ih]

theorem build_built {α : Type} [DecidableEq α] (es : List (HEdge α)) : Built (build es) es := by
  suffices h : ∀ (es : List (HEdge α)) g es0, Built g es0 → Built (es.foldl (fun g e => g.addEdge e.head e.body) g) (es0 ++ es) by
    simpa [build] using h es _ [] .empty
  intro es
  induction es with
  | nil => intro g es0 h; simpa using h
  | cons e es ih =>
    intro g es0 h
    have := ih _ _ (Built.add e.head e.body h)
    simpa using this

theorem isBuiltin_gsub {sig : Sigs} {t : Tm} (h : Named t) (θ : Nat → GTm) : isBuiltin sig (gsub θ t).1 = isBuiltin sig t := by
  obtain ⟨c, as, rfl⟩ := h
  simp [gsub, isBuiltin]

theorem fn_gsub {t : Tm} (h : Named t) (θ : Nat → GTm) : fn (gsub θ t).1 = fn t := by
  obtain ⟨c, as, rfl⟩ := h
  simp [gsub, fn]

theorem fn_some {t : Tm} {c : Const} (h : fn t = some c) : Named t := by
  cases t with
  | var n => simp [fn] at h
  | con k => simp [fn] at h
  | app as =>
    cases as with
    | nil => simp [fn] at h
    | cons a as =>
      cases a with
      | con k => exact ⟨k, as, rfl⟩
      | var n => simp [fn] at h
      | app bs => simp [fn] at h

theorem mem_bodyFns {sig : Sigs} : ∀ {b : List (Lit W)} {cs : List Const}, bodyFns sig b = some cs →
    ∀ c, c ∈ cs ↔ ∃ t, Lit.sub t ∈ b ∧ isBuiltin sig t = false ∧ fn t = some c
  | [], cs, h, c => by simp [bodyFns] at h; subst h; simp
  | .val k :: b, cs, h, c => by
    rw [bodyFns] at h
    simpa using mem_bodyFns h c
  | .sub t :: b, cs, h, c => by
    rw [bodyFns] at h
    cases hb : isBuiltin sig t with
    | true =>
      simp only [hb, if_true] at h
      rw [mem_bodyFns h c]
      constructor
      · rintro ⟨u, h1, h2⟩; exact ⟨u, by simp [h1], h2⟩
      · rintro ⟨u, h1, h2⟩
        rcases List.mem_cons.1 h1 with e | h1
        · cases e; simp [hb] at h2
        · exact ⟨u, h1, h2⟩
    | false =>
      simp only [hb, Bool.false_eq_true, if_false] at h
      cases h1 : fn t with
      | none => simp [h1] at h
      | some k =>
        cases h2 : bodyFns sig b with
        | none => simp [h1, h2] at h
        | some ks =>
          simp only [h1, h2, Option.some.injEq] at h
          subst h
          rw [List.mem_cons, mem_bodyFns h2 c]
          constructor
          · rintro (rfl | ⟨u, h3, h4⟩)
            · exact ⟨t, by simp, hb, h1⟩
            · exact ⟨u, by simp [h3], h4⟩
          · rintro ⟨u, h3, h4, h5⟩
            rcases List.mem_cons.1 h3 with e | h3
            · cases e; left; rw [h1] at h5; exact (Option.some.inj h5).symm
            · exact .inr ⟨u, h3, h4, h5⟩

/-! ### Property C37 -/

/-- **C37 (functors).**  In every round of naive evaluation, for all data on the inputs, each output item has the same value in the
pruned program as in the program. -/
theorem C37_very_fast {sig : Sigs} {rules q : List (WRule W)} {inputs outputs : List Tm} (hp : Plain sig rules)
    (h : VeryFast sig rules inputs outputs q) {d : GTm → W} (hd : Data sig inputs d) (n : Nat) {x : GTm} (hx : IsOutput outputs x) :
    rounds q d n x = rounds rules d n x := by
  obtain ⟨ins, outs, E, C, T, h1, h2, h3, h4, rfl⟩ := h
  obtain ⟨hC, hT⟩ := C42_exact (build_built E) h4
  have hkeep : activeFn T rules E = rules.filter fun r => (fnEdge sig r).any fun e => decide (e.head ∈ T) && e.body.all fun b => decide (b ∈ T) :=
    zip_filter (f := fnEdge sig) (fun e => decide (e.head ∈ T) && e.body.all fun b => decide (b ∈ T)) h3
  rw [hkeep]
  have edge : ∀ r ∈ rules, ∃ e ∈ E, fnEdge sig r = some e ∧ fn r.head = some e.head ∧ bodyFns sig r.body = some e.body := by
    intro r hr
    obtain ⟨e, he, h5⟩ := (allSome_mem h3).1 r hr
    refine ⟨e, he, h5, ?_⟩
    unfold fnEdge at h5
    cases h6 : fn r.head with
    | none => simp [h6] at h5
    | some c =>
      cases h7 : bodyFns sig r.body with
      | none => simp [h6, h7] at h5
      | some cs => simp only [h6, h7, Option.some.injEq] at h5; subst h5; exact ⟨rfl, rfl⟩
  have tree : ∀ e ∈ E, (∀ b ∈ e.body, b ∈ C) → e.head ∈ C := by
    intro e he hb
    rw [hC]
    exact ⟨.edge e he fun i => Classical.choice ((hC _).1 (hb _ (List.get_mem _ _)))⟩
  refine rounds_keep (U := fun x => isBuiltin sig x.1 = true ∨ ∃ c ∈ T, fn x.1 = some c)
    (Der := fun x => isBuiltin sig x.1 = true ∨ ∃ c ∈ C, fn x.1 = some c) ?_ ?_ ?_ n x ?_
  · intro x hx
    rcases hd x hx with h | ⟨t, ht, θ, rfl⟩
    · exact .inl h
    · obtain ⟨c, hc, e⟩ := (allSome_mem h1).1 t ht
      exact .inr ⟨c, (hC c).2 ⟨.input c (by simpa using hc)⟩, by rw [fn_gsub (fn_some e), e]⟩
  · intro r hr θ hb
    obtain ⟨e, he, _, e1, e2⟩ := edge r hr
    refine .inr ⟨e.head, tree e he fun b hbm => ?_, by rw [fn_gsub (fn_some e1), e1]⟩
    obtain ⟨t, t1, t2, t3⟩ := (mem_bodyFns e2 b).1 hbm
    rcases hb t t1 with h | ⟨c, hc, h⟩
    · rw [isBuiltin_gsub (fn_some t3), t2] at h; simp at h
    · rw [fn_gsub (fn_some t3), t3] at h; rw [Option.some.inj h]; exact hc
  · intro r hr θ hu hb
    obtain ⟨e, he, e0, e1, e2⟩ := edge r hr
    have hh : e.head ∈ T := by
      rcases hu with h | ⟨c, hc, h⟩
      · rw [isBuiltin_gsub (fn_some e1), hp.heads r hr] at h; simp at h
      · rw [fn_gsub (fn_some e1), e1] at h; rw [Option.some.inj h]; exact hc
    have hbT : ∀ b ∈ e.body, b ∈ T := by
      intro b hbm
      obtain ⟨t, t1, t2, t3⟩ := (mem_bodyFns e2 b).1 hbm
      have hbC : b ∈ C := by
        rcases hb t t1 with h | ⟨c, hc, h⟩
        · rw [isBuiltin_gsub (fn_some t3), t2] at h; simp at h
        · rw [fn_gsub (fn_some t3), t3] at h; rw [Option.some.inj h]; exact hc
      exact (hT b).2 (.down he ((hT _).1 hh) hbm ((hC b).1 hbC))
    refine ⟨by simpa [e0, hh] using hbT, fun t ht => ?_⟩
    have hn : Named t := (hp.named r hr).2 t ht
    cases hbt : isBuiltin sig t with
    | true => exact .inl (by rw [isBuiltin_gsub hn, hbt])
    | false =>
      obtain ⟨c, as, rfl⟩ := hn
      refine .inr ⟨c, hbT c ((mem_bodyFns e2 c).2 ⟨_, ht, hbt, rfl⟩), by simp [gsub, fn]⟩
  · obtain ⟨t, ht, θ, rfl⟩ := hx
    obtain ⟨c, hc, e⟩ := (allSome_mem h2).1 t ht
    exact .inr ⟨c, (hT c).2 (.out (by simpa using hc)), by rw [fn_gsub (fn_some e), e]⟩

/-! ### The coarsening -/

/-- the item is an instance of the stored term number `i` -/
def InNode (S : TSet) (x : GTm) (i : Nat) : Prop := ∃ s, S.xs[i]? = some s ∧ InstanceOf x.1 s

theorem findGo_spec {f : Nat} {x : Tm} : ∀ {xs : List (Tm × Nat)} {l : List Nat}, findGo f x xs = some l →
    ∀ i, i ∈ l ↔ ∃ s, (s, i) ∈ xs ∧ ∃ θ, x.sub θ = s.sub θ
  | [], l, h, i => by simp [findGo] at h; subst h; simp
  | (s, j) :: xs, l, h, i => by
    rw [findGo] at h
    cases h1 : Heap.unifiesF f x s (fun _ => none) with
    | none => simp [h1] at h
    | some b =>
      cases h2 : findGo f x xs with
      | none => simp [h1, h2] at h
      | some l' =>
        simp only [h1, h2, Option.some.injEq] at h
        subst h
        have ih := findGo_spec h2 i
        have c := DisjointEst.empty_unifies h1
        cases b with
        | true =>
          simp only [if_true, List.mem_cons, ih]
          constructor
          · rintro (rfl | ⟨u, h3, h4⟩)
            · exact ⟨s, .inl rfl, c.1 rfl⟩
            · exact ⟨u, .inr h3, h4⟩
          · rintro ⟨u, h3 | h3, h4⟩
            · cases h3; exact .inl rfl
            · exact .inr ⟨u, h3, h4⟩
        | false =>
          have hn : ¬ ∃ θ, x.sub θ = s.sub θ := fun h => by simpa using c.2 h
          rw [if_neg (by simp), ih]
          constructor
          · rintro ⟨u, h3, h4⟩; exact ⟨u, by simp [h3], h4⟩
          · rintro ⟨u, h3, h4⟩
            rcases List.mem_cons.1 h3 with e | h3
            · cases e; exact absurd h4 hn
            · exact ⟨u, h3, h4⟩

section
variable {sig : Sigs} {fv cv : Nat → Nat} (hfv : Function.Injective fv) (hsep : ∀ i j, fv i ≠ cv j)
include hfv hsep

/-- every node containing an instance of `t` is found -/
theorem findAll_spec {f : Nat} {S : TSet} {ts : List Tm} (hS : DisjointEst.Inv cv S ts) {t : Tm} {l : List Nat}
    (h : findAll fv f S t = some l) {θ : Nat → GTm} {i : Nat} (hi : InNode S (gsub θ t) i) : i ∈ l := by
  classical
  obtain ⟨s, h1, τ, h2⟩ := hi
  have hs : s ∈ S.xs := List.mem_of_getElem? h1
  refine (findGo_spec h i).2 ⟨s, List.mk_mem_zipIdx_iff_getElem?.2 h1, ?_⟩
  have hv := (freshV_spec hfv S.k t).1
  obtain ⟨σ, h3⟩ := InstanceOf.trans ⟨fun n => (θ n).1, rfl⟩ hv.symm.instanceOf
  have hd : ∀ n ∈ vars s, n ∉ vars (freshV fv S.k t).1 := by
    intro n h1 h2
    obtain ⟨j, rfl⟩ := hS.canon s hs n h1
    obtain ⟨i, _, e⟩ := freshV_alloc hfv _ _ _ h2
    exact hsep i j e.symm
  refine ⟨fun n => if n ∈ vars s then τ n else σ n, ?_⟩
  calc _ = (freshV fv S.k t).1.sub σ := sub_congr fun n hn => if_neg fun h => hd n h hn
    _ = s.sub τ := by rw [h3, h2]; rfl
    _ = _ := sub_congr fun n hn => (if_pos hn).symm

omit hfv hsep in
theorem combos_spec {f : Nat} {S : TSet} : ∀ {b : List (Lit W)} {ys : List (List Nat)}, combos sig fv f S b = some ys →
    (∀ t, Lit.sub t ∈ b → isBuiltin sig t = false → ∃ l, findAll fv f S t = some l) ∧
    ∀ g : Tm → Nat, (∀ t, Lit.sub t ∈ b → isBuiltin sig t = false → ∀ l, findAll fv f S t = some l → g t ∈ l) → (bodyTerms sig b).map g ∈ ys
  | [], ys, h => by simp [combos] at h; subst h; simp [bodyTerms]
  | l :: b, ys, h => by
    rw [combos] at h
    cases h1 : opts sig fv f S l with
    | none => simp [h1] at h
    | some vs =>
      cases h2 : combos sig fv f S b with
      | none => simp [h1, h2] at h
      | some ws =>
        simp only [h1, h2, Option.some.injEq] at h
        subst h
        obtain ⟨ih1, ih2⟩ := combos_spec h2
        cases l with
        | val c =>
          simp only [opts, Option.some.injEq] at h1
          subst h1
          refine ⟨fun t ht => ih1 t (by simpa using ht), fun g hg => ?_⟩
          simpa [bodyTerms] using ih2 g fun t ht => hg t (by simp [ht])
        | sub u =>
          cases hb : isBuiltin sig u with
          | true =>
            simp only [opts, hb, if_true, Option.some.injEq] at h1
            subst h1
            refine ⟨fun t ht hn => ?_, fun g hg => ?_⟩
            · rcases List.mem_cons.1 ht with e | ht
              · cases e; simp [hb] at hn
              · exact ih1 t ht hn
            · simpa [bodyTerms, hb] using ih2 g fun t ht => hg t (by simp [ht])
          | false =>
            simp only [opts, hb, Bool.false_eq_true, if_false] at h1
            cases h3 : findAll fv f S u with
            | none => simp [h3] at h1
            | some l =>
              simp only [h3, Option.map_some, Option.some.injEq] at h1
              subst h1
              refine ⟨fun t ht hn => ?_, fun g hg => ?_⟩
              · rcases List.mem_cons.1 ht with e | ht
                · cases e; exact ⟨l, h3⟩
                · exact ih1 t ht hn
              · simp only [bodyTerms, hb, Bool.false_eq_true, if_false, List.map_cons, List.mem_flatMap, List.mem_map]
                exact ⟨[g u], ⟨g u, hg u (by simp) hb l h3, rfl⟩, _, ih2 g fun t ht => hg t (by simp [ht]), rfl⟩

omit hfv hsep in
theorem mem_bodyTerms {t : Tm} : ∀ {b : List (Lit W)}, t ∈ bodyTerms sig b ↔ Lit.sub t ∈ b ∧ isBuiltin sig t = false
  | [] => by simp [bodyTerms]
  | .val c :: b => by simp [bodyTerms, mem_bodyTerms (b := b)]
  | .sub u :: b => by
    cases hb : isBuiltin sig u with
    | true =>
      simp only [bodyTerms, hb, if_true, mem_bodyTerms (b := b), List.mem_cons, Lit.sub.injEq]
      constructor
      · rintro ⟨h1, h2⟩; exact ⟨.inr h1, h2⟩
      · rintro ⟨rfl | h1, h2⟩
        · simp [hb] at h2
        · exact ⟨h1, h2⟩
    | false =>
      simp only [bodyTerms, hb, Bool.false_eq_true, if_false, List.mem_cons, mem_bodyTerms (b := b), Lit.sub.injEq]
      constructor
      · rintro (rfl | ⟨h1, h2⟩)
        · exact ⟨.inl rfl, hb⟩
        · exact ⟨.inr h1, h2⟩
      · rintro ⟨rfl | h1, h2⟩
        · exact .inl rfl
        · exact .inr ⟨h1, h2⟩

omit hfv hsep in
theorem single_some {f : Nat} {S : TSet} {x : Tm} {l : List Nat} (h : single sig fv f S x = some l) :
    isBuiltin sig x = false ∧ findAll fv f S x = some l := by
  unfold single at h
  cases hb : isBuiltin sig x with
  | true => simp [hb] at h
  | false => simpa [hb] using h

omit hfv hsep in
/-- what `good` says about a subgoal with an instance in a useful node -/
theorem good_true {f : Nat} {S : TSet} {T : Finset Nat} {t : Tm} {l : List Nat} (hb : isBuiltin sig t = false) (hl : findAll fv f S t = some l)
    {i : Nat} (hi : i ∈ l) (hT : i ∈ T) : good (W := W) sig fv f S T (.sub t) = some true := by
  simp only [good, opts, hb, Bool.false_eq_true, if_false, hl, Option.map_some, Option.some.injEq, List.any_map, List.any_eq_true]
  exact ⟨i, hi, by simpa using hT⟩

omit hfv hsep in
theorem good_skip {f : Nat} {S : TSet} {T : Finset Nat} {l : Lit W} (h : skip sig l = true) : good sig fv f S T l = some true := by
  cases l with
  | val c => simp [good, opts]
  | sub t => simp only [skip] at h; simp [good, opts, h]

omit hfv hsep in
theorem active_true {f : Nat} {S : TSet} {T : Finset Nat} {r : WRule W} (hh : good (W := W) sig fv f S T (.sub r.head) = some true)
    (hb : ∀ l ∈ r.body, good sig fv f S T l = some true) : active sig fv f S T r = some true := by
  have : ∀ {ls : List (Lit W)}, (∀ l ∈ ls, good sig fv f S T l = some true) → ∃ bs, allSome (good sig fv f S T) ls = some bs ∧ bs.all id = true := by
    intro ls
    induction ls with
    | nil => intro _; exact ⟨[], rfl, rfl⟩
    | cons l ls ih =>
      intro h
      obtain ⟨bs, h1, h2⟩ := ih fun l hl => h l (by simp [hl])
      exact ⟨true :: bs, by simp [allSome, h l (by simp), h1], by simpa using h2⟩
  obtain ⟨bs, h1, h2⟩ := this (ls := .sub r.head :: r.body) fun l hl => by
    rcases List.mem_cons.1 hl with rfl | hl
    · exact hh
    · exact hb l hl
  simp only [active, h1, Option.map_some, h2]

/-- **C37 (unification-based coarsening).**  The same for `prune_fast`. -/
theorem C37_fast (hcv : Function.Injective cv) {f k : Nat} {rules q : List (WRule W)} {inputs outputs : List Tm} (hp : Plain sig rules)
    (hn : ∀ t ∈ terms sig rules inputs, Order.Named t) (h : Fast sig fv cv f k rules inputs outputs q) {d : GTm → W} (hd : Data sig inputs d)
    (n : Nat) {x : GTm} (hx : IsOutput outputs x) : rounds q d n x = rounds rules d n x := by
  classical
  obtain ⟨S, es, ins, outs, C, T, bs, h1, h2, h3, rfl⟩ := h
  obtain ⟨hC, hT⟩ := C42_exact (build_built es) h2
  have hkeep := zip_filter (f := active sig fv f S T) id h3
  simp only [id] at hkeep
  rw [show ((bs.zip rules).filter Prod.fst).map Prod.snd = _ from hkeep]
  unfold coarsen at h1
  cases hS : addAll (DisjointEst.add fv cv f) ⟨[], k⟩ (terms sig rules inputs) with
  | none => simp [hS] at h1
  | some S' =>
  cases i1 : allSome (single sig fv f S') inputs with
  | none => simp [hS, i1] at h1
  | some insL =>
  cases i2 : allSome (ruleEdges sig fv f S') rules with
  | none => simp [hS, i1, i2] at h1
  | some esL =>
  cases i3 : allSome (single sig fv f S') outputs with
  | none => simp [hS, i1, i2, i3] at h1
  | some outsL =>
  simp only [hS, i1, i2, i3, Option.some.injEq, Prod.mk.injEq] at h1
  obtain ⟨rfl, rfl, rfl, rfl⟩ := h1
  have hinv : DisjointEst.Inv cv S' (terms sig rules inputs) := by
    have := DisjointEst.addAll_inv hfv hcv hsep _ _ _ [] hn ⟨by simp, by simp, by simp⟩ hS
    simpa using this
  -- every instance of an added term is in a node
  have cover : ∀ t ∈ terms sig rules inputs, ∀ θ, ∃ i, InNode S' (gsub θ t) i := by
    intro t ht θ
    obtain ⟨s, hs, h⟩ := hinv.cov t ht
    obtain ⟨i, hi⟩ := List.mem_iff_getElem?.1 hs
    exact ⟨i, s, hi, InstanceOf.trans ⟨_, rfl⟩ h⟩
  have mhead : ∀ r ∈ rules, r.head ∈ terms sig rules inputs := fun r hr => by
    simp only [terms, List.mem_append, List.mem_flatMap]; exact .inr ⟨r, hr, by simp⟩
  -- the edges of a rule
  have rule : ∀ r ∈ rules, ∃ xs ys, findAll fv f S' r.head = some xs ∧ combos sig fv f S' r.body = some ys ∧
      ∀ x ∈ xs, ∀ y ∈ ys, (⟨x, y⟩ : HEdge Nat) ∈ insL.flatten.map (fun i => (⟨i, []⟩ : HEdge Nat)) ++ esL.flatten := by
    intro r hr
    obtain ⟨E, hE, h5⟩ := (allSome_mem i2).1 r hr
    unfold ruleEdges at h5
    cases h6 : single sig fv f S' r.head with
    | none => simp [h6] at h5
    | some xs =>
      cases h7 : combos sig fv f S' r.body with
      | none => simp [h6, h7] at h5
      | some ys =>
        simp only [h6, h7, Option.some.injEq] at h5
        subst h5
        refine ⟨xs, ys, (single_some h6).2, rfl, fun x hx y hy => ?_⟩
        simp only [List.mem_append, List.mem_flatten]
        exact .inr ⟨_, hE, by simp only [List.mem_flatMap, List.mem_map]; exact ⟨x, hx, y, hy, rfl⟩⟩
  -- a rule instance whose subgoals are in derivable nodes
  have inst : ∀ r ∈ rules, ∀ θ, (∀ t, Lit.sub t ∈ r.body → isBuiltin sig (gsub θ t).1 = true ∨ ∃ i ∈ C, InNode S' (gsub θ t) i) →
      ∃ g : Tm → Nat, (∀ t, Lit.sub t ∈ r.body → isBuiltin sig t = false → g t ∈ C ∧ InNode S' (gsub θ t) (g t)) ∧
        ∀ x, InNode S' (gsub θ r.head) x →
          (⟨x, (bodyTerms sig r.body).map g⟩ : HEdge Nat) ∈ insL.flatten.map (fun i => (⟨i, []⟩ : HEdge Nat)) ++ esL.flatten := by
    intro r hr θ hb
    obtain ⟨xs, ys, r1, r2, r3⟩ := rule r hr
    have hb' : ∀ t, Lit.sub t ∈ r.body → isBuiltin sig t = false → ∃ i, i ∈ C ∧ InNode S' (gsub θ t) i := by
      intro t ht hbt
      rcases hb t ht with h | h
      · rw [isBuiltin_gsub ((hp.named r hr).2 t ht), hbt] at h; simp at h
      · exact h
    refine ⟨fun t => if h : ∃ i, i ∈ C ∧ InNode S' (gsub θ t) i then h.choose else 0, fun t ht hbt => ?_, fun x hx => ?_⟩
    · have h := hb' t ht hbt
      simp only [dif_pos h]
      exact h.choose_spec
    · refine r3 x (findAll_spec hfv hsep hinv r1 hx) _ ((combos_spec r2).2 _ fun t ht hbt l hl => ?_)
      have h := hb' t ht hbt
      simp only [dif_pos h]
      exact findAll_spec hfv hsep hinv hl h.choose_spec.2
  have hder : ∀ r ∈ rules, ∀ θ, (∀ t, Lit.sub t ∈ r.body → isBuiltin sig (gsub θ t).1 = true ∨ ∃ i ∈ C, InNode S' (gsub θ t) i) →
      isBuiltin sig (gsub θ r.head).1 = true ∨ ∃ i ∈ C, InNode S' (gsub θ r.head) i := by
    intro r hr θ hb
    obtain ⟨g, g1, g2⟩ := inst r hr θ hb
    obtain ⟨i, hi⟩ := cover r.head (mhead r hr) θ
    refine .inr ⟨i, (hC i).2 ⟨.edge ⟨i, (bodyTerms sig r.body).map g⟩ (g2 i hi) fun j => Classical.choice ((hC _).1 ?_)⟩, hi⟩
    have := List.get_mem ((bodyTerms sig r.body).map g) j
    obtain ⟨t, ht, e⟩ := List.mem_map.1 this
    have ht := mem_bodyTerms.1 ht
    have := (g1 t ht.1 ht.2).1
    rw [e] at this
    exact this
  have hdata : ∀ x, d x ≠ 0 → isBuiltin sig x.1 = true ∨ ∃ i ∈ C, InNode S' x i := by
    intro x hx
    rcases hd x hx with h | ⟨t, ht, θ, rfl⟩
    · exact .inl h
    · obtain ⟨l, hl, e⟩ := (allSome_mem i1).1 t ht
      obtain ⟨i, hi⟩ := cover t (by simp [terms, ht]) θ
      refine .inr ⟨i, (hC i).2 ⟨.input i ?_⟩, hi⟩
      simp only [List.mem_toFinset, List.mem_flatten]
      exact ⟨l, hl, findAll_spec hfv hsep hinv (single_some e).2 hi⟩
  by_cases hDx : isBuiltin sig x.1 = true ∨ ∃ i ∈ C, InNode S' x i
  · refine rounds_keep (U := fun x => isBuiltin sig x.1 = true ∨ ∃ i ∈ T, InNode S' x i)
      (Der := fun x => isBuiltin sig x.1 = true ∨ ∃ i ∈ C, InNode S' x i) hdata hder ?_ n x ?_
    · intro r hr θ hu hb
      obtain ⟨g, g1, g2⟩ := inst r hr θ hb
      obtain ⟨i, hi, hi'⟩ : ∃ i ∈ T, InNode S' (gsub θ r.head) i := by
        rcases hu with h | h
        · rw [isBuiltin_gsub (hp.named r hr).1, hp.heads r hr] at h; simp at h
        · exact h
      have hgT : ∀ t, Lit.sub t ∈ r.body → isBuiltin sig t = false → g t ∈ T := by
        intro t ht hbt
        refine (hT _).2 (.down (g2 i hi') ((hT i).1 hi) ?_ ((hC _).1 (g1 t ht hbt).1))
        exact List.mem_map.2 ⟨t, mem_bodyTerms.2 ⟨ht, hbt⟩, rfl⟩
      obtain ⟨xs, ys, r1, r2, r3⟩ := rule r hr
      refine ⟨?_, fun t ht => ?_⟩
      · rw [active_true (good_true (hp.heads r hr) r1 (findAll_spec hfv hsep hinv r1 hi') hi)]
        · rfl
        · intro l hl
          cases l with
          | val c => exact good_skip rfl
          | sub t =>
            cases hbt : isBuiltin sig t with
            | true => exact good_skip hbt
            | false =>
              obtain ⟨l, hl'⟩ := (combos_spec r2).1 t hl hbt
              exact good_true hbt hl' (findAll_spec hfv hsep hinv hl' (g1 t hl hbt).2) (hgT t hl hbt)
      · cases hbt : isBuiltin sig t with
        | true => exact .inl (by rw [isBuiltin_gsub ((hp.named r hr).2 t ht), hbt])
        | false => exact .inr ⟨g t, hgT t ht hbt, (g1 t ht hbt).2⟩
    · rcases hDx with h | ⟨i, hi, hi'⟩
      · exact .inl h
      · obtain ⟨t, ht, θ, rfl⟩ := hx
        obtain ⟨l, hl, e⟩ := (allSome_mem i3).1 t ht
        refine .inr ⟨i, (hT i).2 (.out ?_), hi'⟩
        simp only [List.mem_toFinset, List.mem_flatten]
        exact ⟨l, hl, findAll_spec hfv hsep hinv (single_some e).2 hi'⟩
  · rw [rounds_zero hdata hder (fun r hr => (List.mem_filter.1 hr).1) n x hDx, rounds_zero hdata hder (fun r hr => hr) n x hDx]

end

/-! ### Which rules are kept, and that there is a result -/

/-- functors of items that can have derivations: inputs, and heads of rules whose subgoals have such functors -/
inductive FDer (sig : Sigs) (rules : List (WRule W)) (inputs : List Tm) : Const → Prop
  | input {t c} : t ∈ inputs → fn t = some c → FDer sig rules inputs c
  | rule {r c} : r ∈ rules → fn r.head = some c →
      (∀ t, Lit.sub t ∈ r.body → isBuiltin sig t = false → ∀ b, fn t = some b → FDer sig rules inputs b) → FDer sig rules inputs c

/-- functors reached from the outputs through subgoals that can have derivations -/
inductive FUse (sig : Sigs) (rules : List (WRule W)) (inputs outputs : List Tm) : Const → Prop
  | out {t c} : t ∈ outputs → fn t = some c → FUse sig rules inputs outputs c
  | down {r h t c} : r ∈ rules → fn r.head = some h → FUse sig rules inputs outputs h → Lit.sub t ∈ r.body → isBuiltin sig t = false →
      fn t = some c → FDer sig rules inputs c → FUse sig rules inputs outputs c

/-- **C37 (what is removed).**  Exactly the rules are kept whose head and subgoals have functors reached from the outputs through
functors of items that can have derivations. -/
theorem C37_kept {sig : Sigs} {rules q : List (WRule W)} {inputs outputs : List Tm} (hn : ∀ r ∈ rules, NamedRule r)
    (h : VeryFast sig rules inputs outputs q) (r : WRule W) : r ∈ q ↔ r ∈ rules ∧ (∀ c, fn r.head = some c → FUse sig rules inputs outputs c) ∧
      ∀ t, Lit.sub t ∈ r.body → isBuiltin sig t = false → ∀ c, fn t = some c → FUse sig rules inputs outputs c := by
  obtain ⟨ins, outs, E, C, T, h1, h2, h3, h4, rfl⟩ := h
  obtain ⟨hC, hT⟩ := C42_exact (build_built E) h4
  have hkeep : activeFn T rules E = rules.filter fun r => (fnEdge sig r).any fun e => decide (e.head ∈ T) && e.body.all fun b => decide (b ∈ T) :=
    zip_filter (f := fnEdge sig) (fun e => decide (e.head ∈ T) && e.body.all fun b => decide (b ∈ T)) h3
  have edge' : ∀ (r : WRule W) e, fnEdge sig r = some e → fn r.head = some e.head ∧ bodyFns sig r.body = some e.body := by
    intro r e h5
    unfold fnEdge at h5
    cases h6 : fn r.head with
    | none => simp [h6] at h5
    | some c =>
      cases h7 : bodyFns sig r.body with
      | none => simp [h6, h7] at h5
      | some cs => simp only [h6, h7, Option.some.injEq] at h5; subst h5; exact ⟨rfl, rfl⟩
  have hder : ∀ c, Nonempty (Tree E ins.toFinset c) ↔ FDer sig rules inputs c := by
    intro c
    constructor
    · rintro ⟨t⟩
      induction t with
      | input x hx =>
        obtain ⟨t, ht, e⟩ := (allSome_mem h1).2 x (by simpa using hx)
        exact .input ht e
      | edge e he kids ih =>
        obtain ⟨r, hr, e1⟩ := (allSome_mem h3).2 e he
        obtain ⟨e2, e3⟩ := edge' r e e1
        refine .rule hr e2 fun t ht hb b hf => ?_
        obtain ⟨i, hi⟩ := List.mem_iff_get.1 ((mem_bodyFns e3 b).2 ⟨t, ht, hb, hf⟩)
        exact hi ▸ ih i
    · intro h
      induction h with
      | input ht e =>
        obtain ⟨b, hb, e'⟩ := (allSome_mem h1).1 _ ht
        rw [e] at e'
        exact ⟨.input _ (by rw [Option.some.inj e']; simpa using hb)⟩
      | @rule r c hr e _ ih =>
        obtain ⟨E0, he, e1⟩ := (allSome_mem h3).1 r hr
        obtain ⟨e2, e3⟩ := edge' r E0 e1
        rw [e] at e2
        rw [Option.some.inj e2]
        refine ⟨.edge E0 he fun i => Classical.choice ?_⟩
        obtain ⟨t, t1, t2, t3⟩ := (mem_bodyFns e3 _).1 (List.get_mem E0.body i)
        exact ih t t1 t2 _ t3
  have huse : ∀ c, c ∈ T ↔ FUse sig rules inputs outputs c := by
    intro c
    rw [hT]
    constructor
    · intro h
      induction h with
      | out hx =>
        obtain ⟨t, ht, e⟩ := (allSome_mem h2).2 _ (by simpa using hx)
        exact .out ht e
      | @down e b he _ hb ht ih =>
        obtain ⟨r, hr, e1⟩ := (allSome_mem h3).2 e he
        obtain ⟨e2, e3⟩ := edge' r e e1
        obtain ⟨t, t1, t2, t3⟩ := (mem_bodyFns e3 b).1 hb
        exact .down hr e2 ih t1 t2 t3 ((hder b).1 ht)
    · intro h
      induction h with
      | out ht e =>
        obtain ⟨b, hb, e'⟩ := (allSome_mem h2).1 _ ht
        rw [e] at e'
        exact .out (by rw [Option.some.inj e']; simpa using hb)
      | @down r h t c hr e _ t1 t2 t3 hd ih =>
        obtain ⟨E0, he, e1⟩ := (allSome_mem h3).1 r hr
        obtain ⟨e2, e3⟩ := edge' r E0 e1
        rw [e] at e2
        rw [Option.some.inj e2] at ih
        exact .down he ih ((mem_bodyFns e3 c).2 ⟨t, t1, t2, t3⟩) ((hder c).2 hd)
  rw [hkeep, List.mem_filter]
  refine and_congr_right fun hr => ?_
  obtain ⟨E0, he, e1⟩ := (allSome_mem h3).1 r hr
  obtain ⟨e2, e3⟩ := edge' r E0 e1
  simp only [e1, Option.any_some, Bool.and_eq_true, decide_eq_true_eq, List.all_eq_true, huse]
  refine and_congr ⟨fun h c hc => ?_, fun h => h _ e2⟩ ⟨fun h t t1 t2 c t3 => h c ((mem_bodyFns e3 c).2 ⟨t, t1, t2, t3⟩), fun h b hb => ?_⟩
  · rw [e2] at hc; rw [← Option.some.inj hc]; exact h
  · obtain ⟨t, t1, t2, t3⟩ := (mem_bodyFns e3 b).1 hb
    exact h t t1 t2 b t3

theorem allSome_total {α β : Type} {f : α → Option β} : ∀ {l : List α}, (∀ a ∈ l, ∃ b, f a = some b) → ∃ bs, allSome f l = some bs
  | [], _ => ⟨[], rfl⟩
  | a :: l, h => by
    obtain ⟨b, hb⟩ := h a (by simp)
    obtain ⟨bs, hbs⟩ := allSome_total (l := l) fun a ha => h a (by simp [ha])
    exact ⟨b :: bs, by simp [allSome, hb, hbs]⟩

/-- there is a result if heads, subgoals, inputs and outputs have functors -/
theorem C37_very_fast_returns {sig : Sigs} {rules : List (WRule W)} {inputs outputs : List Tm} (hn : ∀ r ∈ rules, NamedRule r)
    (hi : ∀ t ∈ inputs, Sem.Named t) (ho : ∀ t ∈ outputs, Sem.Named t) : ∃ q, VeryFast sig rules inputs outputs q := by
  have fnT : ∀ t, Sem.Named t → ∃ c, fn t = some c := by rintro t ⟨c, as, rfl⟩; exact ⟨c, rfl⟩
  obtain ⟨ins, h1⟩ := allSome_total fun t ht => fnT t (hi t ht)
  obtain ⟨outs, h2⟩ := allSome_total fun t ht => fnT t (ho t ht)
  have hb : ∀ b : List (Lit W), (∀ t, Lit.sub t ∈ b → Sem.Named t) → ∃ cs, bodyFns sig b = some cs := by
    intro b
    induction b with
    | nil => intro _; exact ⟨[], rfl⟩
    | cons l b ih =>
      intro h
      obtain ⟨cs, hcs⟩ := ih fun t ht => h t (by simp [ht])
      cases l with
      | val c => exact ⟨cs, hcs⟩
      | sub t =>
        obtain ⟨c, hc⟩ := fnT t (h t (by simp))
        cases hbt : isBuiltin sig t with
        | true => exact ⟨cs, by simp [bodyFns, hbt, hcs]⟩
        | false => exact ⟨c :: cs, by simp [bodyFns, hbt, hcs, hc]⟩
  obtain ⟨E, h3⟩ := allSome_total (f := fnEdge sig) (l := rules) fun r hr => by
    obtain ⟨c, hc⟩ := fnT _ (hn r hr).1
    obtain ⟨cs, hcs⟩ := hb r.body (hn r hr).2
    exact ⟨⟨c, cs⟩, by simp [fnEdge, hc, hcs]⟩
  obtain ⟨C, T, h4⟩ := C42_total (build_built E) ins.toFinset outs.toFinset
  exact ⟨_, ins, outs, E, C, T, h1, h2, h3, h4, rfl⟩

theorem allSome_evt {α β : Type} {f : Nat → α → Option β} : ∀ {l : List α}, (∀ a ∈ l, ∃ b, Evt (fun n => f n a = some b)) →
    ∃ bs, Evt (fun n => allSome (f n) l = some bs)
  | [], _ => ⟨[], .of_all fun _ => rfl⟩
  | a :: l, h => by
    obtain ⟨b, hb⟩ := h a (by simp)
    obtain ⟨bs, hbs⟩ := allSome_evt (l := l) fun a ha => h a (by simp [ha])
    exact ⟨b :: bs, (hb.and hbs).mono fun n e => by simp [allSome, e.1, e.2]⟩

theorem unifies_evt (x y : Tm) : ∃ b, Evt (fun f => unifiesF f x y (fun _ => none) = some b) := by
  obtain ⟨r, _, he⟩ := unify_result Solver.good_noHeap x y
  cases r with
  | none => exact ⟨false, he.mono fun f e => by simp only [unifiesF]; rw [show (fun _ => none : Heap) = Solver.noHeap from rfl, e]; rfl⟩
  | some bs => exact ⟨true, he.mono fun f e => by simp only [unifiesF]; rw [show (fun _ => none : Heap) = Solver.noHeap from rfl, e]; rfl⟩

theorem findAll_evt (fv : Nat → Nat) (S : TSet) (x : Tm) : ∃ l, Evt (fun f => findAll fv f S x = some l) := by
  suffices h : ∀ (y : Tm) (xs : List (Tm × Nat)), ∃ l, Evt (fun f => findGo f y xs = some l) from h _ _
  intro y xs
  induction xs with
  | nil => exact ⟨[], .of_all fun _ => rfl⟩
  | cons a xs ih =>
    obtain ⟨b, hb⟩ := unifies_evt y a.1
    obtain ⟨l, hl⟩ := ih
    exact ⟨if b then a.2 :: l else l, (hb.and hl).mono fun f e => by rw [findGo, e.1, e.2]⟩

theorem opts_evt (sig : Sigs) (fv : Nat → Nat) (S : TSet) (l : Lit W) : ∃ vs, Evt (fun f => opts sig fv f S l = some vs) := by
  cases l with
  | val c => exact ⟨[[]], .of_all fun _ => rfl⟩
  | sub t =>
    cases hb : isBuiltin sig t with
    | true => exact ⟨[[]], .of_all fun _ => by simp [opts, hb]⟩
    | false =>
      obtain ⟨l, hl⟩ := findAll_evt fv S t
      exact ⟨l.map fun i => [i], hl.mono fun f e => by simp [opts, hb, e]⟩

theorem combos_evt (sig : Sigs) (fv : Nat → Nat) (S : TSet) : ∀ b : List (Lit W), ∃ ys, Evt (fun f => combos sig fv f S b = some ys)
  | [] => ⟨[[]], .of_all fun _ => rfl⟩
  | l :: b => by
    obtain ⟨vs, hv⟩ := opts_evt sig fv S l
    obtain ⟨ws, hw⟩ := combos_evt sig fv S b
    exact ⟨vs.flatMap fun v => ws.map fun w => v ++ w, (hv.and hw).mono fun f e => by rw [combos, e.1, e.2]⟩

/-- there is a result if no head, input or output is a builtin -/
theorem C37_fast_returns {sig : Sigs} {fv cv : Nat → Nat} {k : Nat} {rules : List (WRule W)} {inputs outputs : List Tm}
    (hr : ∀ r ∈ rules, isBuiltin sig r.head = false) (hi : ∀ t ∈ inputs, isBuiltin sig t = false)
    (ho : ∀ t ∈ outputs, isBuiltin sig t = false) : Evt (fun f => ∃ q, Fast sig fv cv f k rules inputs outputs q) := by
  obtain ⟨N, hN⟩ := DisjointEst.C13_terminates (fv := fv) (cv := cv) k (terms sig rules inputs)
  have hS : ∃ S, Evt (fun f => addAll (DisjointEst.add fv cv f) ⟨[], k⟩ (terms sig rules inputs) = some S) := by
    cases h : addAll (DisjointEst.add fv cv N) ⟨[], k⟩ (terms sig rules inputs) with
    | none => exact absurd h (hN N (le_refl _))
    | some S =>
      refine ⟨S, N, fun f hf => ?_⟩
      have mono : ∀ f ts (S0 S : TSet), addAll (DisjointEst.add fv cv f) S0 ts = some S → addAll (DisjointEst.add fv cv (f + 1)) S0 ts = some S := by
        intro f ts
        induction ts with
        | nil => intro S0 S h; simpa [addAll] using h
        | cons t ts ih =>
          intro S0 S h
          rw [addAll] at h ⊢
          cases h1 : DisjointEst.add fv cv f S0 t with
          | none => simp [h1] at h
          | some S1 =>
            simp only [h1] at h
            rw [DisjointEst.add_mono _ _ _ _ h1]
            exact ih _ _ h
      obtain ⟨m, rfl⟩ := Nat.exists_eq_add_of_le hf
      clear hf
      induction m with
      | zero => exact h
      | succ m ih => exact mono _ _ _ _ ih
  obtain ⟨S, hS⟩ := hS
  have sgl : ∀ x, isBuiltin sig x = false → ∃ l, Evt (fun f => single sig fv f S x = some l) := fun x hx => by
    obtain ⟨l, hl⟩ := findAll_evt fv S x
    exact ⟨l, hl.mono fun f e => by simp [single, hx, e]⟩
  obtain ⟨ins, h1⟩ := allSome_evt (f := fun f => single sig fv f S) (l := inputs) fun t ht => sgl t (hi t ht)
  obtain ⟨outs, h2⟩ := allSome_evt (f := fun f => single sig fv f S) (l := outputs) fun t ht => sgl t (ho t ht)
  obtain ⟨es, h3⟩ := allSome_evt (f := fun f => ruleEdges sig fv f S) (l := rules) fun r hrr => by
    obtain ⟨xs, hx⟩ := sgl r.head (hr r hrr)
    obtain ⟨ys, hy⟩ := combos_evt sig fv S r.body
    exact ⟨_, (hx.and hy).mono fun f e => by rw [ruleEdges, e.1, e.2]⟩
  obtain ⟨C, T, h4⟩ := C42_total (build_built (ins.flatten.map (fun i => (⟨i, []⟩ : HEdge Nat)) ++ es.flatten)) ins.flatten.toFinset outs.flatten.toFinset
  have hgood : ∀ l : Lit W, ∃ b, Evt (fun f => good sig fv f S T l = some b) := fun l => by
    obtain ⟨vs, hv⟩ := opts_evt sig fv S l
    exact ⟨_, hv.mono fun f e => by rw [good, e]; rfl⟩
  obtain ⟨bs, h5⟩ := allSome_evt (f := fun f => active sig fv f S T) (l := rules) fun r _ => by
    obtain ⟨gs, hg⟩ := allSome_evt (f := fun f => good sig fv f S T) (l := .sub r.head :: r.body) fun l _ => hgood l
    exact ⟨_, hg.mono fun f e => by rw [active, e]; rfl⟩
  refine (hS.and (h1.and (h2.and (h3.and h5)))).mono fun f e => ?_
  refine ⟨_, S, _, _, _, C, T, bs, ?_, h4, e.2.2.2.2, rfl⟩
  unfold coarsen
  simp only [e.1, e.2.1, e.2.2.1, e.2.2.2.1]

section Examples
open Unfold (at')
open Linearize (isSig)

/-- `goal += f(X) * e(X). f(X) += g(X). f(X) += 2 * e(Y) * (X is Y). h(X) += e(X).` with input `e(X)` and output `goal` -/
def demoP : List (WRule TV) := [⟨at' "goal" [], [.sub (at' "f" [.var 0]), .sub (at' "e" [.var 0])]⟩, ⟨at' "f" [.var 1], [.sub (at' "g" [.var 1])]⟩,
  ⟨at' "f" [.var 2], [.val .t, .sub (at' "e" [.var 3]), .sub (at' "is" [.var 2, .var 3])]⟩, ⟨at' "h" [.var 4], [.sub (at' "e" [.var 4])]⟩]
def demoI : List Tm := [at' "e" [.var 5]]
def demoO : List Tm := [at' "goal" []]

theorem demo_named : ∀ r ∈ demoP, NamedRule r := by
  intro r hr
  simp only [demoP, List.mem_cons, List.not_mem_nil, or_false] at hr
  rcases hr with rfl | rfl | rfl | rfl <;> refine ⟨⟨_, _, rfl⟩, fun t ht => ?_⟩ <;>
    simp only [List.mem_cons, Lit.sub.injEq, reduceCtorEq, List.not_mem_nil, or_false, false_or] at ht
  · rcases ht with rfl | rfl <;> exact ⟨_, _, rfl⟩
  · subst ht; exact ⟨_, _, rfl⟩
  · rcases ht with rfl | rfl <;> exact ⟨_, _, rfl⟩
  · subst ht; exact ⟨_, _, rfl⟩

theorem demo_plain : Plain isSig demoP := ⟨by decide, demo_named⟩

/-- the hypotheses hold of it, and there is a result -/
example : ∃ q, VeryFast isSig demoP demoI demoO q ∧ ∀ d, Data isSig demoI d → ∀ n x, IsOutput demoO x → rounds q d n x = rounds demoP d n x := by
  obtain ⟨q, h⟩ := C37_very_fast_returns (sig := isSig) demo_named (inputs := demoI) (outputs := demoO)
    (by simp [demoI, Sem.Named]) (by simp [demoO, Sem.Named])
  exact ⟨q, h, fun d hd n x hx => C37_very_fast demo_plain h hd n hx⟩

example : ∃ f q, Fast isSig (fun i => 2 * i) (fun i => 2 * i + 1) f 6 demoP demoI demoO q ∧
    ∀ d, Data isSig demoI d → ∀ n x, IsOutput demoO x → rounds q d n x = rounds demoP d n x := by
  obtain ⟨f, hf⟩ := C37_fast_returns (sig := isSig) (fv := fun i => 2 * i) (cv := fun i => 2 * i + 1) (k := 6) (rules := demoP) (inputs := demoI)
    (outputs := demoO) (by decide) (by decide) (by decide)
  obtain ⟨q, h⟩ := hf f (le_refl _)
  refine ⟨f, q, h, fun d hd n x hx => C37_fast (fun a b (h : 2 * a = 2 * b) => by omega) (fun i j => by omega)
    (fun a b (h : 2 * a + 1 = 2 * b + 1) => by omega) demo_plain ?_ h hd n hx⟩
  have : terms isSig demoP demoI = [at' "e" [.var 5], at' "goal" [], at' "f" [.var 0], at' "e" [.var 0], at' "f" [.var 1], at' "g" [.var 1], at' "f" [.var 2],
    at' "e" [.var 3], at' "h" [.var 4], at' "e" [.var 4]] := by decide
  rw [this]
  intro t ht
  simp only [List.mem_cons, List.not_mem_nil, or_false] at ht
  rcases ht with rfl | rfl | rfl | rfl | rfl | rfl | rfl | rfl | rfl | rfl <;> exact .app _ _ (by simp <;> exact .var _)

/-- the rules for `h` and the first one for `f` are removed -/
example (q : List (WRule TV)) (h : VeryFast isSig demoP demoI demoO q) : demoP[3] ∉ q ∧ demoP[1] ∉ q ∧ demoP[0] ∈ q ∧ demoP[2] ∈ q := by
  have der : ∀ c, FDer isSig demoP demoI c → c ≠ .str "g" := by
    rintro c h rfl
    cases h with
    | input ht e => simp only [demoI, List.mem_singleton] at ht; subst ht; simp [fn] at e
    | rule hr e _ =>
      simp only [demoP, List.mem_cons, List.not_mem_nil, or_false] at hr
      rcases hr with rfl | rfl | rfl | rfl <;> simp [fn] at e
  have dE : FDer isSig demoP demoI (.str "e") := .input (t := at' "e" [.var 5]) (by simp [demoI]) rfl
  have dF : FDer isSig demoP demoI (.str "f") := .rule (r := demoP[2]) (by simp) rfl (by
    intro t ht hb b e
    simp only [demoP, List.getElem_cons_succ, List.getElem_cons_zero, List.mem_cons, Lit.sub.injEq, reduceCtorEq, List.not_mem_nil, or_false, false_or] at ht
    rcases ht with rfl | rfl
    · simp only [fn, Option.some.injEq] at e; subst e; exact dE
    · simp [isBuiltin, isSig] at hb)
  have uG : FUse isSig demoP demoI demoO (.str "goal") := .out (t := at' "goal" []) (by simp [demoO]) rfl
  have uF : FUse isSig demoP demoI demoO (.str "f") := .down (r := demoP[0]) (t := at' "f" [.var 0]) (by simp) rfl uG (by simp [demoP]) (by decide) rfl dF
  have uE : FUse isSig demoP demoI demoO (.str "e") := .down (r := demoP[0]) (t := at' "e" [.var 0]) (by simp) rfl uG (by simp [demoP]) (by decide) rfl dE
  refine ⟨fun hq => ?_, fun hq => ?_, ?_, ?_⟩
  · have := ((C37_kept demo_named h _).1 hq).2.1 (.str "h") rfl
    generalize hc : Const.str "h" = c at this
    cases this with
    | out ht e => simp only [demoO, List.mem_singleton] at ht; subst ht hc; simp [fn] at e
    | down hr e _ ht hb e' _ =>
      subst hc
      simp only [demoP, List.mem_cons, List.not_mem_nil, or_false] at hr
      rcases hr with rfl | rfl | rfl | rfl <;>
        simp only [List.mem_cons, Lit.sub.injEq, reduceCtorEq, List.not_mem_nil, or_false, false_or] at ht
      · rcases ht with rfl | rfl <;> simp [fn] at e'
      · subst ht; simp [fn] at e'
      · rcases ht with rfl | rfl <;> simp [fn] at e'
      · subst ht; simp [fn] at e'
  · have := ((C37_kept demo_named h _).1 hq).2.2 (at' "g" [.var 1]) (by simp [demoP]) (by decide) (.str "g") rfl
    generalize hc : Const.str "g" = c at this
    cases this with
    | out ht e => simp only [demoO, List.mem_singleton] at ht; subst ht hc; simp [fn] at e
    | down _ _ _ _ _ _ hd => exact der _ hd hc.symm
  · refine (C37_kept demo_named h _).2 ⟨by simp, fun c e => ?_, fun t ht hb c e => ?_⟩
    · simp only [demoP, List.getElem_cons_zero, fn, Option.some.injEq] at e; subst e; exact uG
    · simp only [demoP, List.getElem_cons_zero, List.mem_cons, Lit.sub.injEq, List.not_mem_nil, or_false] at ht
      rcases ht with rfl | rfl <;> simp only [fn, Option.some.injEq] at e <;> subst e
      · exact uF
      · exact uE
  · refine (C37_kept demo_named h _).2 ⟨by simp, fun c e => ?_, fun t ht hb c e => ?_⟩
    · simp only [demoP, List.getElem_cons_succ, List.getElem_cons_zero, fn, Option.some.injEq] at e; subst e; exact uF
    · simp only [demoP, List.getElem_cons_succ, List.getElem_cons_zero, List.mem_cons, Lit.sub.injEq, reduceCtorEq, List.not_mem_nil, or_false, false_or] at ht
      rcases ht with rfl | rfl
      · simp only [fn, Option.some.injEq] at e; subst e; exact uE
      · simp [isBuiltin, isSig] at hb

end Examples

end Prune
end Verif
