/-
Property C78: `unfold_x` keeps the values of output items, gets rid of the subgoals it is asked to get rid of, and ends.
-/
import Verif.UnfoldX
import Verif.UnfoldLift
import Verif.PruneThm
import Verif.FoldThm
import Verif.MagicThm
import Verif.UnfoldMono

set_option linter.unusedSectionVars false
set_option linter.unusedSimpArgs false

namespace Verif
open Tm Heap Sem
open Solver (noHeap forEach good_noHeap respects_noHeap)
open Unfold (Ops Prog US unfold tryRule resolvent offers lookup freshR freshR_spec made Below resolvent_evt Pre UserHead Modelled bval subRule subLit)
open Linearize (Sigs isBuiltin)
open Fold (WVariant Faithful)
open Magic (FullyNamed)

namespace UnfoldX
variable {W : Type}

/-! ### Most general unifiers of named terms are named -/

/-- replace everything whose functor is not a constant by a constant -/
def flat : Tm → Tm
  | .var n => .var n
  | .con c => .con c
  | .app (.con c :: as) => .app (.con c :: as.map flat)
  | .app _ => .con (.int 0)

theorem flat_sub {t : Tm} (h : Order.Named t) (σ : Nat → Tm) : t.sub (fun n => flat (σ n)) = flat (t.sub σ) := by
  induction h with
  | var n => simp
  | con c => simp [flat]
  | app c as _ ih =>
    simp only [sub_app, List.map_cons, sub_con, flat, List.map_map]
    congr 2
    exact List.map_congr_left fun t ht => ih t ht

theorem named_of_flat (u : Tm) : flat u = u → Order.Named u := by
  induction u using Tm.ind with
  | hv n => intro _; exact .var n
  | hc c => intro _; exact .con c
  | ha as ih =>
    intro h
    match as, ih, h with
    | [], _, h => simp [flat] at h
    | .var n :: as, _, h => simp [flat] at h
    | .app l :: as, _, h => simp [flat] at h
    | .con c :: as, ih, h =>
      simp only [flat, Tm.app.injEq, List.cons.injEq, true_and] at h
      refine .app c as fun t ht => ih t (List.mem_cons_of_mem _ ht) ?_
      have := List.map_eq_map_iff.1 (h.trans (List.map_id as).symm) t ht
      simpa using this

theorem bindAll_other : ∀ {bs : List (Nat × Tm)} {h : Heap} {n : Nat}, n ∉ bs.map (·.1) → bindAll h bs n = h n
  | [], _, _, _ => rfl
  | (x, t) :: bs, h, n, hn => by
    simp only [List.map_cons, List.mem_cons, not_or] at hn
    rw [bindAll, bindAll_other hn.2, Heap.upd, if_neg hn.1]

theorem mgu_named {x y : Tm} {bs : List (Nat × Tm)} (hs : Spec noHeap x y (some bs)) (hx : Order.Named x) (hy : Order.Named y) (n : Nat) :
    Order.Named (res (bindAll noHeap bs) n) := by
  cases hs with
  | ok _ hg hr hn hd hv =>
  have heq : x.sub (res (bindAll noHeap bs)) = y.sub (res (bindAll noHeap bs)) := ((hr _).1 hg.respects_res).2
  have hδ : Respects (bindAll noHeap bs) (fun n => flat (res (bindAll noHeap bs) n)) :=
    (hr _).2 ⟨respects_noHeap _, by rw [flat_sub hx, flat_sub hy, heq]⟩
  have h1 := hg.sub_res hδ (.var n)
  simp only [sub_var] at h1
  have h2 : (res (bindAll noHeap bs) n).sub (fun n => flat (res (bindAll noHeap bs) n)) = res (bindAll noHeap bs) n := by
    conv_rhs => rw [← sub_id (res (bindAll noHeap bs) n)]
    refine sub_congr fun m hm => ?_
    have hu : bindAll noHeap bs m = none := by
      have := (hv (.var n) m (by simpa using hm)).2
      rw [bindAll_other this]; rfl
    rw [res_unbound hu]
    simp [flat]
  exact named_of_flat _ (h1.symm.trans h2)

theorem named_sub {t : Tm} (h : Order.Named t) {σ : Nat → Tm} (hσ : ∀ n, Order.Named (σ n)) : Order.Named (t.sub σ) := by
  induction h with
  | var n => simpa using hσ n
  | con c => simpa using .con c
  | app c as _ ih =>
    simp only [sub_app, List.map_cons, sub_con]
    refine .app c _ fun t ht => ?_
    obtain ⟨a, ha, rfl⟩ := List.mem_map.1 ht
    exact ih a ha

/-! ### What unfolding makes -/

variable [CSemi W] [DecidableEq W]

/-- `t` is made from the context and the definition `s` of the subgoal `q` -/
def Made (head : Tm) (L : List (Lit W)) (q : Tm) (R : List (Lit W)) (s t : WRule W) : Prop :=
  ∃ (σ : Nat → Tm) (ρ : Nat → Nat) (c : List W), t.head = head.sub σ ∧
    t.body = (L ++ s.body.map (renLit ρ) ++ R).map (subLit σ) ++ c.map .val ∧
    (Order.Named s.head → Order.Named q → ∀ n, Order.Named (σ n))

theorem tryRule_made {head : Tm} {L : List (Lit W)} {q : Tm} {R : List (Lit W)} (s : WRule W) (i : Nat) (st : US W) :
    ∃ out k', Evt (fun f => tryRule f q (resolvent f infty head L R) (s, i) noHeap st = some (noHeap, ⟨st.out ++ out, k'⟩, .done)) ∧
      st.k ≤ k' ∧ (∀ t ∈ out, Below k' t.1 ∧ Made head L q R s t.1) ∧ out.length ≤ 1 := by
  obtain ⟨ρ, hρ1, hρ2, hρ3, hρ4⟩ := freshR_spec st.k s
  set s' := (freshR st.k s).1 with hs'
  obtain ⟨r, hs, he⟩ := unify_result good_noHeap s'.head q
  cases r with
  | none =>
    refine ⟨[], (freshR st.k s).2, he.mono fun f e => ?_, hρ4, by simp, by simp⟩
    unfold tryRule
    simp only []
    rw [← hs', e]
    simp [run]
  | some bs =>
    have hspec := hs
    cases hs with
    | ok _ hg hr hn hd hv =>
    set h' := bindAll noHeap bs with hh'
    set t' := made infty (subRule (res h') ⟨head, L ++ s'.body ++ R⟩) (subRule (res h') s') with ht'
    obtain ⟨ρ', a1, a2, a3, a4⟩ := freshR_spec (freshR st.k s).2 t'
    have hu : unbindAll bs h' = noHeap := unbindAll_bindAll hn fun p _ => rfl
    refine ⟨[((freshR (freshR st.k s).2 t').1, some i)], (freshR (freshR st.k s).2 t').2, ?_, le_trans hρ4 a4, ?_, by simp⟩
    · refine (he.and (resolvent_evt hg infty head L R s' (some i))).mono fun f e => ?_
      unfold tryRule
      simp only []
      rw [← hs', e.1]
      simp only [run]
      rw [← hh', e.2]
      simp only [hu]
      rfl
    · intro t ht
      simp only [List.mem_singleton] at ht
      subst ht
      refine ⟨?_, ?_⟩
      · intro n hn
        simp only [a1, rvars_renRule, Finset.mem_image] at hn
        obtain ⟨m, hm, rfl⟩ := hn
        exact (a3 m hm).2
      · have hc : ∀ b : List (Lit W), (b.map (subLit (res h'))).map (renLit ρ') = b.map (subLit fun n => (res h' n).sub fun m => .var (ρ' m)) := by
          intro b
          rw [List.map_map]
          refine List.map_congr_left fun l _ => ?_
          cases l with
          | val k => rfl
          | sub t => simp only [Function.comp, renLit, subLit, Tm.sub_sub]
        have hb : s'.body = s.body.map (renLit ρ) := by rw [hρ1]; rfl
        have hd' : s'.head = s.head.sub fun n => .var (ρ n) := by rw [hρ1]; rfl
        have base : ∀ c : List W, Made head L q R s (renRule ρ' ⟨head.sub (res h'), (L ++ s'.body ++ R).map (subLit (res h')) ++ c.map .val⟩) := by
          intro c
          refine ⟨fun n => (res h' n).sub fun m => .var (ρ' m), ρ, c, ?_, ?_, fun h1 h2 n => ?_⟩
          · simp only [renRule, Tm.sub_sub]
          · simp only [renRule]
            rw [List.map_append, hc, hb]
            congr 1
            simp only [List.map_map]
            rfl
          · refine named_sub (mgu_named hspec ?_ h2 n) fun m => .var _
            rw [hd']
            exact named_sub h1 fun m => .var _
        show Made head L q R s (freshR (freshR st.k s).2 t').1
        rw [a1, ht']
        unfold made
        split
        · simpa [subRule] using base []
        · split
          · simpa [subRule] using base [infty]
          · simpa [subRule] using base []

theorem loop_made {head : Tm} {L : List (Lit W)} {q : Tm} {R : List (Lit W)} : ∀ (ds : List (WRule W × Nat)) (st : US W),
    ∃ out k', Evt (fun f => forEach ds (tryRule f q (resolvent f infty head L R)) noHeap st = some (noHeap, ⟨st.out ++ out, k'⟩, .done)) ∧
      st.k ≤ k' ∧ (∀ t ∈ out, Below k' t.1 ∧ ∃ s ∈ ds, Made head L q R s.1 t.1) ∧ out.length ≤ ds.length
  | [], st => ⟨[], st.k, .of_all fun f => by simp [forEach], le_refl _, by simp, by simp⟩
  | (s, i) :: ds, st => by
    obtain ⟨o1, k1, a1, a2, a3, a4⟩ := tryRule_made (head := head) (L := L) (q := q) (R := R) s i st
    obtain ⟨o2, k2, b1, b2, b3, b4⟩ := loop_made (head := head) (L := L) (q := q) (R := R) ds ⟨st.out ++ o1, k1⟩
    refine ⟨o1 ++ o2, k2, (a1.and b1).mono fun f e => ?_, le_trans a2 b2, ?_, ?_⟩
    · simp only [forEach, e.1, e.2, List.append_assoc]
    · intro t ht
      rcases List.mem_append.1 ht with h | h
      · exact ⟨fun n hn => lt_of_lt_of_le ((a3 t h).1 n hn) b2, (s, i), by simp, (a3 t h).2⟩
      · obtain ⟨c1, s', c2, c3⟩ := b3 t h
        exact ⟨c1, s', List.mem_cons_of_mem _ c2, c3⟩
    · simp only [List.length_append, List.length_cons]
      omega

theorem unfold_made {ops : Ops} {k : Nat} {p d : Prog W} {i j : Nat} {r : WRule W} {q : Tm} (h : Pre ops k p d i j r q)
    (hq : UserHead ops q) :
    ∃ new st, Evt (fun f => unfold f ops infty k p d i j = some (p.rules.erase r ++ new, st, .done)) ∧
      k ≤ st.k ∧ (∀ t ∈ new, Below st.k t ∧ ∃ s ∈ d.rules, hfn s.head = hfn q ∧ Made r.head (r.body.take j) q (r.body.drop (j + 1)) s t) ∧
      new.length ≤ (d.rules.filter fun s => hfn s.head == hfn q).length := by
  obtain ⟨c, as, rfl, ho, hc⟩ := hq
  have hun : Unfold.unmodelled c = false := by
    obtain ⟨c', as', h1, h2, _⟩ := h.kind
    simp only [Tm.app.injEq, List.cons.injEq, Tm.con.injEq] at h1
    rw [h1.1]; exact h2
  obtain ⟨new, k', h1, h2, h3, h4⟩ := loop_made (q := .app (.con c :: as)) (head := r.head)
    (L := r.body.take j) (R := r.body.drop (j + 1)) (offers d.rules c) ⟨[], k⟩
  refine ⟨new.map Prod.fst, ⟨new, k'⟩, ?_, h2, ?_, ?_⟩
  · refine (h1.and (Unfold.isInput_evt h.notInput)).mono fun f e => ?_
    have : lookup f ops d.rules (.app (.con c :: as)) (resolvent f infty r.head (r.body.take j) (r.body.drop (j + 1))) noHeap ⟨[], k⟩ =
        forEach (offers d.rules c) (tryRule f (.app (.con c :: as)) (resolvent f infty r.head (r.body.take j) (r.body.drop (j + 1)))) noHeap ⟨[], k⟩ := by
      simp only [lookup, hun, ho]
      simp only [Bool.false_eq_true, if_false]
      split
      · exact absurd rfl hc
      · rfl
    simp only [unfold, h.rule, h.goal, e.2, this, e.1, List.nil_append]
  · intro t ht
    obtain ⟨t0, ht0, rfl⟩ := List.mem_map.1 ht
    obtain ⟨a1, s, a2, a3⟩ := h3 t0 ht0
    refine ⟨a1, s.1, ?_, ?_, a3⟩
    · simp only [offers, List.mem_filter] at a2
      have := List.mem_map_of_mem (f := Prod.fst) a2.1
      simpa using this
    · simp only [offers, List.mem_filter, beq_iff_eq] at a2
      rw [a2.2]; rfl
  · rw [List.length_map]
    refine le_trans h4 (le_of_eq ?_)
    unfold offers
    have key : ∀ (l : List (WRule W)) (n : Nat), ((l.zipIdx n).filter fun ir => hfn ir.1.head == some c).length =
        (l.filter fun s => hfn s.head == some c).length := by
      intro l
      induction l with
      | nil => intro n; rfl
      | cons a l ih =>
        intro n
        rw [List.zipIdx_cons, List.filter_cons, List.filter_cons]
        by_cases hb : (hfn a.head == some c) = true
        · rw [if_pos hb, if_pos hb, List.length_cons, List.length_cons, ih]
        · rw [if_neg hb, if_neg hb, ih]
    exact key d.rules 0

/-! ### Spec -/

/-- the subgoal and the pattern have a common instance -/
def Meets (x : Tm) : Lit W → Prop
  | .val _ => False
  | .sub y => ∃ θ φ : Nat → Tm, x.sub θ = y.sub φ

/-- no subgoal of the rules can be an `x` item -/
def Gone (x : Tm) (rules : List (WRule W)) : Prop := ∀ r ∈ rules, ∀ l ∈ r.body, ¬ Meets x l

open Classical in
/-- the number of subgoals that can be `x` items -/
noncomputable def cnt (x : Tm) (b : List (Lit W)) : Nat := b.countP fun l => decide (Meets x l)

variable {S : Type} [DecidableEq S]

/-- what is assumed about the surroundings: comparison operators and `=` are registered as builtins, outputs are not builtins,
and the two supplies of variables are independent -/
structure Env.Ok (e : Env W S) : Prop where
  fv : Function.Injective e.fv
  sep : ∀ i j, e.fv i ≠ e.cv j
  cv : Function.Injective e.cv
  sig : ∀ c, (e.ops c ≠ none ∨ c = .str "=") → e.sig c 2 = true
  outs : ∀ t ∈ e.outputs, isBuiltin e.sig t = false

/-- what is assumed about the program: variables are numbered below the allocation mark, heads are not builtins, the builtins used
are modelled, and all functors are constants -/
structure Ok (e : Env W S) (p : Prog W) (k : Nat) : Prop where
  below : ∀ r ∈ p.rules, Below k r
  heads : ∀ r ∈ p.rules, UserHead e.ops r.head
  sig : ∀ r ∈ p.rules, isBuiltin e.sig r.head = false
  subs : ∀ r ∈ p.rules, ∀ q, Lit.sub q ∈ r.body → Modelled e.ops q
  named : ∀ r ∈ p.rules, FullyNamed r
  inputs : ∀ t ∈ p.inputs, Order.Named t ∧ isBuiltin e.sig t = false

/-- the pattern is an atom that is neither a builtin nor an input -/
structure Target (e : Env W S) (x : Tm) (c : Const) (ins : List Tm) : Prop where
  atom : ∃ as, x = .app (.con c :: as)
  user : e.ops c = none ∧ c ≠ .str "="
  inputs : ∀ t ∈ ins, ∃ c' as, t = .app (.con c' :: as) ∧ c' ≠ c

/-! ### Finding the first subgoal -/

omit [CSemi W] [DecidableEq W] in
theorem meets_sub {x : Tm} {σ : Nat → Tm} {l : Lit W} (h : Meets x (subLit σ l)) : Meets x l := by
  cases l with
  | val c => exact h
  | sub y =>
    obtain ⟨θ, φ, h⟩ := h
    exact ⟨θ, fun n => (σ n).sub φ, by rw [h, Tm.sub_sub]⟩

omit [CSemi W] [DecidableEq W] in
theorem meets_ren {x : Tm} {ρ : Nat → Nat} {l : Lit W} (h : Meets x (renLit ρ l)) : Meets x l := by
  cases l with
  | val c => exact h
  | sub y =>
    obtain ⟨θ, φ, h⟩ := h
    exact ⟨θ, fun n => φ (ρ n), by rw [h, Tm.sub_sub]; simp⟩

omit [CSemi W] [DecidableEq W] in
theorem hits_spec {f k : Nat} {x : Tm} (hx : ∃ as, x = .app as) {l : Lit W} (hl : ∀ n ∈ litVars l, n < k) {b : Bool}
    (h : hits f k x l = some b) : b = true ↔ Meets x l := by
  obtain ⟨as, rfl⟩ := hx
  cases l with
  | val c =>
    simp only [hits, Option.some.injEq] at h
    subst h
    simp [Meets]
  | sub y =>
    simp only [hits] at h
    rw [DisjointEst.empty_unifies h]
    constructor
    · rintro ⟨τ, h⟩
      exact ⟨fun n => τ (k + n), τ, by rw [← h, Tm.sub_sub]; simp⟩
    · rintro ⟨θ, φ, h⟩
      refine ⟨fun n => if n < k then φ n else θ (n - k), ?_⟩
      rw [Tm.sub_sub]
      have h1 : sub (fun n => (Tm.var (k + n)).sub fun n => if n < k then φ n else θ (n - k)) (.app as) = sub θ (.app as) :=
        sub_congr fun n _ => by simp
      have h2 : y.sub (fun n => if n < k then φ n else θ (n - k)) = y.sub φ :=
        sub_congr fun n hn => by simp [hl n hn]
      rw [h1, h2, h]

omit [DecidableEq W] in
theorem firstIn_spec {f k : Nat} {x : Tm} (hx : ∃ as, x = .app as) : ∀ {b : List (Lit W)} {j0 : Nat} {o : Option Nat}, (∀ n ∈ bodyVars b, n < k) →
    firstIn f k x b j0 = some o → match (generalizing := false) o with
      | none => ∀ l ∈ b, ¬ Meets x l
      | some j => ∃ m l, j = j0 + m ∧ b[m]? = some l ∧ Meets x l ∧ ∀ m' < m, ∀ l', b[m']? = some l' → ¬ Meets x l'
  | [], j0, o, _, h => by
    simp only [firstIn, Option.some.injEq] at h
    subst h
    simp
  | l :: b, j0, o, hb, h => by
    unfold firstIn at h
    have hl : ∀ n ∈ litVars l, n < k := fun n hn => hb n (by simp only [bodyVars, Finset.mem_union]; exact .inl hn)
    cases hh : hits f k x l with
    | none => simp [hh] at h
    | some d =>
      have hs := hits_spec hx hl hh
      cases d with
      | true =>
        simp only [hh, Option.some.injEq] at h
        subst h
        exact ⟨0, l, by simp, by simp, hs.1 rfl, by simp⟩
      | false =>
        simp only [hh] at h
        have hn : ¬ Meets x l := fun hm => by simpa using hs.2 hm
        have ih := firstIn_spec hx (b := b) (fun n hn => hb n (by simp only [bodyVars, Finset.mem_union]; exact .inr hn)) h
        cases o with
        | none =>
          intro l' hl'
          rcases List.mem_cons.1 hl' with rfl | hl'
          · exact hn
          · exact ih l' hl'
        | some j =>
          obtain ⟨m, l1, e, h1, h2, h3⟩ := ih
          refine ⟨m + 1, l1, by omega, by simpa using h1, h2, fun m' hm' l' hl' => ?_⟩
          cases m' with
          | zero => simp only [List.getElem?_cons_zero, Option.some.injEq] at hl'; subst hl'; exact hn
          | succ m' => exact h3 m' (by omega) l' (by simpa using hl')

omit [DecidableEq W] in
theorem first_spec {f k : Nat} {x : Tm} (hx : ∃ as, x = .app as) : ∀ {rs : List (WRule W)} {i0 : Nat} {o : Option (Nat × Nat)}, (∀ r ∈ rs, Below k r) →
    first f k x rs i0 = some o → match (generalizing := false) o with
      | none => Gone x rs
      | some (i, j) => ∃ m r l, i = i0 + m ∧ rs[m]? = some r ∧ r.body[j]? = some l ∧ Meets x l ∧
        (∀ j' < j, ∀ l', r.body[j']? = some l' → ¬ Meets x l') ∧ ∀ m' < m, ∀ r', rs[m']? = some r' → ∀ l ∈ r'.body, ¬ Meets x l
  | [], i0, o, _, h => by
    simp only [first, Option.some.injEq] at h
    subst h
    simp [Gone]
  | r :: rs, i0, o, hb, h => by
    unfold first at h
    have hr : ∀ n ∈ bodyVars r.body, n < k := fun n hn => hb r (by simp) n (by simp only [rvars, Finset.mem_union]; exact .inr hn)
    cases hh : firstIn f k x r.body 0 with
    | none => simp [hh] at h
    | some d =>
      have hs := firstIn_spec hx hr hh
      cases d with
      | some j =>
        simp only [hh, Option.some.injEq] at h
        subst h
        obtain ⟨m, l, e, h1, h2, h3⟩ := hs
        obtain rfl : j = m := by omega
        exact ⟨0, r, l, by simp, by simp, h1, h2, h3, by simp⟩
      | none =>
        simp only [hh] at h
        have ih := first_spec hx (rs := rs) (fun r hr => hb r (by simp [hr])) h
        cases o with
        | none =>
          intro r' hr'
          rcases List.mem_cons.1 hr' with rfl | hr'
          · exact hs
          · exact ih r' hr'
        | some ij =>
          obtain ⟨m, r1, l, e, h1, h2, h3, h4, h5⟩ := ih
          refine ⟨m + 1, r1, l, by omega, by simpa using h1, h2, h3, h4, fun m' hm' r' hr' => ?_⟩
          cases m' with
          | zero => simp only [List.getElem?_cons_zero, Option.some.injEq] at hr'; subst hr'; exact hs
          | succ m' => exact h5 m' (by omega) r' (by simpa using hr')

omit [CSemi W] [DecidableEq W] in
theorem firstIn_evt (k : Nat) (x : Tm) : ∀ (b : List (Lit W)) (j0 : Nat), ∃ o, Evt (fun f => firstIn f k x b j0 = some o)
  | [], j0 => ⟨none, .of_all fun f => rfl⟩
  | l :: b, j0 => by
    have hh : ∃ d, Evt (fun f => hits f k x l = some d) := by
      cases l with
      | val c => exact ⟨_, .of_all fun f => rfl⟩
      | sub y =>
        obtain ⟨r, hs, he⟩ := unify_result good_noHeap (x.sub fun n => .var (k + n)) y
        cases r with
        | none => exact ⟨false, he.mono fun f e => by simp only [hits, unifiesF, e, run, Option.map_some]⟩
        | some bs => exact ⟨true, he.mono fun f e => by simp only [hits, unifiesF, e, run, Option.map_some]⟩
    obtain ⟨d, hd⟩ := hh
    cases d with
    | true => exact ⟨some j0, hd.mono fun f e => by simp only [firstIn, e]⟩
    | false =>
      obtain ⟨o, ho⟩ := firstIn_evt k x b (j0 + 1)
      exact ⟨o, (hd.and ho).mono fun f e => by simp only [firstIn, e.1, e.2]⟩

omit [CSemi W] [DecidableEq W] in
theorem first_evt (k : Nat) (x : Tm) : ∀ (rs : List (WRule W)) (i0 : Nat), ∃ o, Evt (fun f => first f k x rs i0 = some o)
  | [], i0 => ⟨none, .of_all fun f => rfl⟩
  | r :: rs, i0 => by
    obtain ⟨d, hd⟩ := firstIn_evt k x r.body 0
    cases d with
    | some j => exact ⟨some (i0, j), hd.mono fun f e => by simp only [first, e]⟩
    | none =>
      obtain ⟨o, ho⟩ := first_evt k x rs (i0 + 1)
      exact ⟨o, (hd.and ho).mono fun f e => by simp only [first, e.1, e.2]⟩

/-! ### One step -/

theorem Target.pre {e : Env W S} {x : Tm} {c : Const} {p : Prog W} {k : Nat} (ht : Target e x c p.inputs) (hp : Ok e p k) {f i j : Nat}
    (h : first f k x p.rules 0 = some (some (i, j))) :
    ∃ r q, Pre e.ops k p p i j r q ∧ UserHead e.ops q ∧ hfn q = some c ∧ Meets (W := W) x (.sub q) := by
  obtain ⟨as, rfl⟩ := ht.atom
  obtain ⟨m, r, l, rfl, h1, h2, h3, -⟩ := first_spec ⟨_, rfl⟩ hp.below h
  rw [Nat.zero_add]
  have hr : r ∈ p.rules := List.mem_of_getElem? h1
  cases l with
  | val v => exact absurd h3 id
  | sub q =>
    have hq := hp.subs r hr q (List.mem_of_getElem? h2)
    obtain ⟨c', as', rfl, hm, ha⟩ := hq
    have hc : c' = c := by
      obtain ⟨θ, φ, h3⟩ := h3
      simp only [sub_app, List.map_cons, sub_con, Tm.app.injEq, List.cons.injEq, Tm.con.injEq] at h3
      exact h3.1.symm
    subst hc
    refine ⟨r, _, ⟨h1, h2, hp.below r hr, hp.heads, ⟨_, _, rfl, hm, ha⟩, fun t ht' θ φ e => ?_⟩, ⟨_, _, rfl, ht.user⟩, rfl, h3⟩
    obtain ⟨c'', as'', rfl, hne⟩ := ht.inputs t ht'
    have := congrArg Subtype.val e
    simp only [gsub, sub_app, List.map_cons, sub_con, Tm.app.injEq, List.cons.injEq, Tm.con.injEq] at this
    exact hne this.1

omit [CSemi W] [DecidableEq W] in
theorem fast_sublist : ∀ (bs : List Bool) (rules : List (WRule W)), (((bs.zip rules).filter Prod.fst).map Prod.snd).Sublist rules
  | [], rules => by simp
  | b :: bs, [] => by simp
  | b :: bs, r :: rules => by
    have ih := fast_sublist bs rules
    cases b with
    | true => simpa using ih
    | false => simpa using ih.cons r

theorem userHead_sub {ops : Ops} {t : Tm} (h : UserHead ops t) (σ : Nat → Tm) : UserHead ops (t.sub σ) := by
  obtain ⟨c, as, rfl, h⟩ := h
  exact ⟨c, as.map (sub σ), by simp, h⟩

theorem modelled_sub {ops : Ops} {t : Tm} (h : Modelled ops t) (σ : Nat → Tm) : Modelled ops (t.sub σ) := by
  obtain ⟨c, as, rfl, h1, h2⟩ := h
  exact ⟨c, as.map (sub σ), by simp, h1, by simpa using h2⟩

theorem fullyNamed_made {head : Tm} {L : List (Lit W)} {q : Tm} {R : List (Lit W)} {s t : WRule W} (h : Made head L q R s t)
    (hr : FullyNamed (⟨head, L ++ .sub q :: R⟩ : WRule W)) (hs : FullyNamed s) : FullyNamed t := by
  obtain ⟨σ, ρ, c, h1, h2, h3⟩ := h
  have hσ := h3 hs.head (hr.body q (by simp))
  have key : ∀ u, Lit.sub u ∈ t.body → ∃ w τ, u = w.sub τ ∧ (∀ n, Order.Named (τ n)) ∧ Order.Named w ∧ Sem.Named w := by
    intro u hu
    rw [h2, List.mem_append] at hu
    rcases hu with hu | hu
    · obtain ⟨l, hl, e⟩ := List.mem_map.1 hu
      cases l with
      | val v => simp [subLit] at e
      | sub w =>
        simp only [subLit, Lit.sub.injEq] at e
        simp only [List.mem_append, List.mem_map] at hl
        rcases hl with (hl | ⟨l, hl, e'⟩) | hl
        · exact ⟨w, σ, e.symm, hσ, hr.body w (by simp [hl]), hr.rule.body w (by simp [hl])⟩
        · cases l with
          | val v => simp [renLit] at e'
          | sub w' =>
            simp only [renLit, Lit.sub.injEq] at e'
            subst e'
            refine ⟨w', fun n => σ (ρ n), ?_, fun n => hσ _, hs.body w' hl, hs.rule.body w' hl⟩
            rw [← e, Tm.sub_sub]; simp
        · exact ⟨w, σ, e.symm, hσ, hr.body w (by simp [hl]), hr.rule.body w (by simp [hl])⟩
    · simp at hu
  have hN : ∀ {w : Tm} {τ : Nat → Tm}, Sem.Named w → Sem.Named (w.sub τ) := by
    rintro w τ ⟨c, as, rfl⟩
    exact ⟨c, as.map (sub τ), by simp⟩
  refine ⟨⟨?_, fun u hu => ?_⟩, ?_, fun u hu => ?_⟩
  · rw [h1]; exact hN hr.rule.head
  · obtain ⟨w, τ, rfl, -, -, h⟩ := key u hu; exact hN h
  · rw [h1]; exact named_sub hr.head hσ
  · obtain ⟨w, τ, rfl, a, b, -⟩ := key u hu; exact named_sub b a

theorem subs_made {head : Tm} {L : List (Lit W)} {q : Tm} {R : List (Lit W)} {s t : WRule W} (h : Made head L q R s t) {P : Tm → Prop}
    (hP : ∀ t σ, P t → P (t.sub σ)) (hr : ∀ u, Lit.sub u ∈ L ++ .sub q :: R → P u) (hs : ∀ u, Lit.sub u ∈ s.body → P u) :
    ∀ u, Lit.sub u ∈ t.body → P u := by
  obtain ⟨σ, ρ, c, h1, h2, h3⟩ := h
  intro u hu
  rw [h2, List.mem_append] at hu
  rcases hu with hu | hu
  · obtain ⟨l, hl, e⟩ := List.mem_map.1 hu
    cases l with
    | val v => simp [subLit] at e
    | sub w =>
      simp only [subLit, Lit.sub.injEq] at e
      subst e
      simp only [List.mem_append, List.mem_map] at hl
      refine hP _ _ ?_
      rcases hl with (hl | ⟨l, hl, e'⟩) | hl
      · exact hr w (by simp [hl])
      · cases l with
        | val v => simp [renLit] at e'
        | sub w' =>
          simp only [renLit, Lit.sub.injEq] at e'
          subst e'
          exact hP _ _ (hs w' hl)
      · exact hr w (by simp [hl])
  · simp at hu

theorem sig_sub {sig : Sigs} {t : Tm} (h : Sem.Named t) (σ : Nat → Tm) : isBuiltin sig (t.sub σ) = isBuiltin sig t := by
  obtain ⟨c, as, rfl⟩ := h
  simp [isBuiltin]

/-- what one step does -/
structure Stepped (e : Env W S) (x : Tm) (c : Const) (p : Prog W) (k i j : Nat) (r : WRule W) (q : Tm) (p' : Prog W) (k' : Nat) (new : List (WRule W)) :
    Prop where
  pre : Pre e.ops k p p i j r q
  user : UserHead e.ops q
  fn : hfn q = some c
  meets : Meets (W := W) x (.sub q)
  made : ∀ t ∈ new, Below k' t ∧ ∃ s ∈ p.rules, hfn s.head = some c ∧ Made r.head (r.body.take j) q (r.body.drop (j + 1)) s t
  few : new.length ≤ (p.rules.filter fun s => hfn s.head == some c).length
  sub : p'.rules.Sublist (p.rules.erase r ++ new)
  ins : p'.inputs = p.inputs
  mark : k ≤ k'
  evt : ∃ st, st.k = k' ∧ Evt (fun f => unfold f e.ops infty k p p i j = some (p.rules.erase r ++ new, st, .done))
  fast : ∃ f, Prune.Fast e.sig e.fv e.cv f k' (p.rules.erase r ++ new) p.inputs e.outputs p'.rules

theorem Stepped.mid {e : Env W S} {x : Tm} {c : Const} {p : Prog W} {k i j : Nat} {r : WRule W} {q : Tm} {p' : Prog W} {k' : Nat} {new : List (WRule W)}
    (h : Stepped e x c p k i j r q p' k' new) (hp : Ok e p k) : Ok e ⟨p.rules.erase r ++ new, p.inputs⟩ k' := by
  have hr : r ∈ p.rules := List.mem_of_getElem? h.pre.rule
  have hb := Unfold.split_body h.pre.goal
  have hmem : ∀ {s}, s ∈ p.rules.erase r → s ∈ p.rules := fun h => List.mem_of_mem_erase h
  have hrn : FullyNamed (⟨r.head, r.body.take j ++ .sub q :: r.body.drop (j + 1)⟩ : WRule W) := by rw [← hb]; exact hp.named r hr
  refine ⟨?_, ?_, ?_, ?_, ?_, hp.inputs⟩ <;> intro s hs <;> rcases List.mem_append.1 hs with hs | hs
  · exact fun n hn => lt_of_lt_of_le (hp.below s (hmem hs) n hn) h.mark
  · exact (h.made s hs).1
  · exact hp.heads s (hmem hs)
  · obtain ⟨-, d, hd, -, σ, ρ, c, h1, -⟩ := h.made s hs
    rw [h1]; exact userHead_sub (hp.heads r hr) _
  · exact hp.sig s (hmem hs)
  · obtain ⟨-, d, hd, -, σ, ρ, c, h1, -⟩ := h.made s hs
    rw [h1, sig_sub (hp.named r hr).rule.head]; exact hp.sig r hr
  · exact hp.subs s (hmem hs)
  · obtain ⟨-, d, hd, -, hm⟩ := h.made s hs
    exact subs_made hm (P := Modelled e.ops) (fun t σ h => modelled_sub h σ) (by rw [← hb]; exact hp.subs r hr) (hp.subs d hd)
  · exact hp.named s (hmem hs)
  · obtain ⟨-, d, hd, -, hm⟩ := h.made s hs
    exact fullyNamed_made hm hrn (hp.named d hd)

theorem Stepped.ok {e : Env W S} {x : Tm} {c : Const} {p : Prog W} {k i j : Nat} {r : WRule W} {q : Tm} {p' : Prog W} {k' : Nat} {new : List (WRule W)}
    (h : Stepped e x c p k i j r q p' k' new) (hp : Ok e p k) : Ok e p' k' := by
  have hm := h.mid hp
  have hs : ∀ s ∈ p'.rules, s ∈ p.rules.erase r ++ new := fun s hs => h.sub.subset hs
  exact ⟨fun s h => hm.below s (hs s h), fun s h => hm.heads s (hs s h), fun s h => hm.sig s (hs s h), fun s h => hm.subs s (hs s h),
    fun s h => hm.named s (hs s h), by rw [h.ins]; exact hp.inputs⟩

theorem Step.stepped {e : Env W S} {x : Tm} {c : Const} {p p' : Prog W} {k k' : Nat} (h : Step e x p k p' k') (ht : Target e x c p.inputs)
    (hp : Ok e p k) : ∃ i j r q new, Stepped e x c p k i j r q p' k' new := by
  obtain ⟨f, i, j, new, st, q', h1, h2, h3, rfl, rfl⟩ := h
  obtain ⟨r, q, a1, a2, a3, a4⟩ := ht.pre hp h1
  obtain ⟨new', st', b1, b2, b3, b4⟩ := unfold_made a1 a2
  have hd := Unfold.unfold_det h2 b1
  simp only [Prod.mk.injEq, and_true] at hd
  obtain ⟨rfl, rfl⟩ := hd
  refine ⟨i, j, r, q, new', a1, a2, a3, a4, ?_, ?_, ?_, rfl, b2, ⟨st, rfl, b1⟩, ⟨f, h3⟩⟩
  · intro t ht
    obtain ⟨c1, s, c2, c3, c4⟩ := b3 t ht
    exact ⟨c1, s, c2, by rw [c3, a3], c4⟩
  · rwa [a3] at b4
  · obtain ⟨_, _, _, _, _, _, bs, _, _, _, rfl⟩ := h3
    exact fast_sublist _ _

/-! ### Property C78: values -/

theorem Env.Ok.data {e : Env W S} (he : e.Ok) {ins : List Tm} {d : GTm → W} (hd : Unfold.Data e.ops ins d) : Prune.Data e.sig ins d := by
  intro x hx
  have := hd x
  cases hb : bval (W := W) e.ops x.1 with
  | some b =>
    left
    unfold bval at hb
    split at hb
    · rename_i c a b' hc
      rw [hc]
      simp only [isBuiltin, List.length_cons, List.length_nil]
      refine he.sig c ?_
      cases ho : e.ops c with
      | some o => simp
      | none =>
        rw [ho] at hb
        by_cases h : c = .str "="
        · exact .inr h
        · simp [h] at hb
    · simp at hb
  | none =>
    right
    simp only [hb] at this
    by_contra hn
    push Not at hn
    exact hx (this fun t ht θ => hn t ht θ)

theorem Ok.plain {e : Env W S} {p : Prog W} {k : Nat} (hp : Ok e p k) : Prune.Plain e.sig p.rules :=
  ⟨hp.sig, fun r hr => (hp.named r hr).rule⟩

theorem Ok.terms {e : Env W S} {p : Prog W} {k : Nat} (hp : Ok e p k) : ∀ t ∈ Prune.terms e.sig p.rules p.inputs, Order.Named t := by
  intro t ht
  simp only [Prune.terms, List.mem_append, List.mem_flatMap, List.mem_cons] at ht
  rcases ht with ht | ⟨r, hr, rfl | ht⟩
  · exact (hp.inputs t ht).1
  · exact (hp.named r hr).head
  · exact (hp.named r hr).body t (Magic.mem_bodyTerms ht)

theorem Run.inputs {e : Env W S} {x : Tm} {p q : Prog W} {k : Nat} (h : Run e x p k q) : q.inputs = p.inputs := by
  induction h with
  | none => rfl
  | same => rfl
  | go h _ _ ih =>
    obtain ⟨_, _, _, _, _, _, _, _, _, rfl, _⟩ := h
    exact ih

section least
variable {W : Type} [OSemi W] [DecidableEq W] {S : Type} [DecidableEq S]

theorem Step.values {e : Env W S} (he : e.Ok) {x : Tm} {c : Const} {p p' : Prog W} {k k' : Nat} (h : Step e x p k p' k')
    (ht : Target e x c p.inputs) (hp : Ok e p k) {d : GTm → W} (hd : Unfold.Data e.ops p.inputs d) {y : GTm} (hy : Prune.IsOutput e.outputs y) (b : W) :
    (∀ n, rounds p.rules d n y ≤ b) ↔ ∀ n, rounds p'.rules d n y ≤ b := by
  obtain ⟨i, j, r, q, new, hs⟩ := h.stepped ht hp
  obtain ⟨new', st', a1, a2⟩ := Unfold.C33_least hs.pre hd
  obtain ⟨st, -, b1⟩ := hs.evt
  obtain ⟨f, hf⟩ := a1.and b1
  have := (hf f (le_refl _))
  have e1 : new' = p.rules.erase r ++ new := by
    have := this.1.symm.trans this.2
    simp only [Option.some.injEq, Prod.mk.injEq] at this
    exact this.1
  subst e1
  rw [a2 y b]
  obtain ⟨g, hg⟩ := hs.fast
  have hm := hs.mid hp
  refine forall_congr' fun n => ?_
  rw [Prune.C37_fast he.fv he.sep he.cv hm.plain hm.terms hg (he.data hd) n hy]

/-- **C78 (values).**  Whatever `unfold_x` returns, output items have the same least upper bound of their values as before. -/
theorem C78_values {e : Env W S} (he : e.Ok) {x : Tm} {c : Const} {p q : Prog W} {k : Nat} (h : Run e x p k q)
    (ht : Target e x c p.inputs) (hp : Ok e p k) {d : GTm → W} (hd : Unfold.Data e.ops p.inputs d) {y : GTm} (hy : Prune.IsOutput e.outputs y) (b : W) :
    (∀ n, rounds p.rules d n y ≤ b) ↔ ∀ n, rounds q.rules d n y ≤ b := by
  induction h with
  | none => rfl
  | same => rfl
  | go h _ _ ih =>
    obtain ⟨i, j, r, q, new, hs⟩ := h.stepped ht hp
    rw [h.values he ht hp hd hy b]
    exact ih (by rw [hs.ins]; exact ht) (hs.ok hp) (by rw [hs.ins]; exact hd)

end least

/-! ### Property C78: the subgoals disappear -/

/-- the definitions of `x` items do not use `x` items -/
def Flat (x : Tm) (c : Const) (rules : List (WRule W)) : Prop := ∀ s ∈ rules, hfn s.head = some c → ∀ l ∈ s.body, ¬ Meets x l

/-- the number of rules for the functor -/
def defs (c : Const) (rules : List (WRule W)) : Nat := (rules.filter fun s => hfn s.head == some c).length

/-- each rule counts `(N + 1) ^ n` where `n` is the number of its `x` subgoals -/
noncomputable def weight (N : Nat) (x : Tm) (rules : List (WRule W)) : Nat := (rules.map fun r => (N + 1) ^ cnt x r.body).sum

omit [CSemi W] [DecidableEq W] in
theorem cnt_append (x : Tm) (a b : List (Lit W)) : cnt x (a ++ b) = cnt x a + cnt x b := by simp [cnt]

omit [CSemi W] [DecidableEq W] in
theorem cnt_map_le (x : Tm) (g : Lit W → Lit W) (hg : ∀ l, Meets x (g l) → Meets x l) (b : List (Lit W)) : cnt x (b.map g) ≤ cnt x b := by
  classical
  unfold cnt
  rw [List.countP_map]
  exact List.countP_mono_left fun l _ h => by simpa using hg l (by simpa using h)

omit [CSemi W] [DecidableEq W] in
theorem cnt_zero {x : Tm} {b : List (Lit W)} (h : ∀ l ∈ b, ¬ Meets x l) : cnt x b = 0 := by
  classical
  unfold cnt
  rw [List.countP_eq_zero]
  exact fun l hl => by simpa using h l hl

theorem cnt_made {x : Tm} {head : Tm} {L : List (Lit W)} {q : Tm} {R : List (Lit W)} {s t : WRule W} (h : Made head L q R s t)
    (hs : ∀ l ∈ s.body, ¬ Meets x l) : cnt x t.body ≤ cnt x L + cnt x R := by
  obtain ⟨σ, ρ, c, -, h2, -⟩ := h
  have hc : cnt x (c.map Lit.val : List (Lit W)) = 0 := cnt_zero fun l hl => by
    obtain ⟨v, -, rfl⟩ := List.mem_map.1 hl; exact id
  have h1 := cnt_map_le x (subLit σ) (fun l => meets_sub) (L ++ s.body.map (renLit ρ) ++ R)
  have h3 := cnt_map_le x (renLit ρ) (fun l => meets_ren) s.body
  rw [cnt_zero hs] at h3
  rw [cnt_append, cnt_append] at h1
  rw [h2, cnt_append, hc]
  omega

omit [CSemi W] [DecidableEq W] in
theorem weight_append (N : Nat) (x : Tm) (a b : List (WRule W)) : weight N x (a ++ b) = weight N x a + weight N x b := by simp [weight]

omit [CSemi W] [DecidableEq W] in
theorem weight_sublist {N : Nat} {x : Tm} {a b : List (WRule W)} (h : a.Sublist b) : weight N x a ≤ weight N x b :=
  (h.map fun r : WRule W => (N + 1) ^ cnt x r.body).sum_le_sum fun _ _ => Nat.zero_le _

theorem hfn_sub {t : Tm} (h : Sem.Named t) (σ : Nat → Tm) : hfn (t.sub σ) = hfn t := by
  obtain ⟨c, as, rfl⟩ := h
  simp [hfn]

theorem Stepped.other {e : Env W S} {x : Tm} {c : Const} {p : Prog W} {k i j : Nat} {r : WRule W} {q : Tm} {p' : Prog W} {k' : Nat} {new : List (WRule W)}
    (h : Stepped e x c p k i j r q p' k' new) (hp : Ok e p k) (hf : Flat x c p.rules) : ∀ t ∈ new, hfn t.head ≠ some c := by
  intro t ht hc
  obtain ⟨-, d, hd, -, σ, ρ, cs, h1, -⟩ := h.made t ht
  have hr : r ∈ p.rules := List.mem_of_getElem? h.pre.rule
  rw [h1, hfn_sub (hp.named r hr).rule.head] at hc
  exact hf r hr hc _ (List.mem_of_getElem? h.pre.goal) h.meets

theorem Stepped.flat {e : Env W S} {x : Tm} {c : Const} {p : Prog W} {k i j : Nat} {r : WRule W} {q : Tm} {p' : Prog W} {k' : Nat} {new : List (WRule W)}
    (h : Stepped e x c p k i j r q p' k' new) (hp : Ok e p k) (hf : Flat x c p.rules) : Flat x c p'.rules := by
  intro s hs hc
  rcases List.mem_append.1 (h.sub.subset hs) with hs | hs
  · exact hf s (List.mem_of_mem_erase hs) hc
  · exact absurd hc (h.other hp hf s hs)

theorem Stepped.defs {e : Env W S} {x : Tm} {c : Const} {p : Prog W} {k i j : Nat} {r : WRule W} {q : Tm} {p' : Prog W} {k' : Nat} {new : List (WRule W)}
    (h : Stepped e x c p k i j r q p' k' new) (hp : Ok e p k) (hf : Flat x c p.rules) : defs c p'.rules ≤ defs c p.rules := by
  have h1 := (h.sub.filter fun s => hfn s.head == some c).length_le
  have h2 : new.filter (fun s => hfn s.head == some c) = [] := by
    rw [List.filter_eq_nil_iff]
    exact fun t ht => by simpa using h.other hp hf t ht
  rw [List.filter_append, h2, List.append_nil] at h1
  exact le_trans h1 ((List.erase_sublist.filter _).length_le)

theorem Stepped.decreases {e : Env W S} {x : Tm} {c : Const} {p : Prog W} {k i j : Nat} {r : WRule W} {q : Tm} {p' : Prog W} {k' : Nat}
    {new : List (WRule W)} (h : Stepped e x c p k i j r q p' k' new) (hf : Flat x c p.rules) {N : Nat} (hN : UnfoldX.defs c p.rules ≤ N) :
    weight N x p'.rules < weight N x p.rules := by
  have hr : r ∈ p.rules := List.mem_of_getElem? h.pre.rule
  have hb := Unfold.split_body h.pre.goal
  have h1 : weight N x p'.rules ≤ weight N x (p.rules.erase r) + weight N x new := by
    rw [← weight_append]; exact weight_sublist h.sub
  have h2 : weight N x p.rules = (N + 1) ^ cnt x r.body + weight N x (p.rules.erase r) := by
    have := ((List.perm_cons_erase hr).map fun r => (N + 1) ^ cnt x r.body).sum_eq
    simpa [weight] using this
  have h3 : cnt x r.body = (cnt x (r.body.take j) + cnt x (r.body.drop (j + 1))) + 1 := by
    have : cnt x (.sub q :: r.body.drop (j + 1)) = cnt x (r.body.drop (j + 1)) + 1 := by
      classical
      unfold cnt
      rw [List.countP_cons_of_pos]
      simpa using h.meets
    conv_lhs => rw [hb]
    rw [cnt_append, this]
    omega
  set m := cnt x (r.body.take j) + cnt x (r.body.drop (j + 1))
  have h4 : weight N x new ≤ N * (N + 1) ^ m := by
    have hle : ∀ w ∈ new.map (fun r => (N + 1) ^ cnt x r.body), w ≤ (N + 1) ^ m := by
      intro w hw
      obtain ⟨t, ht, rfl⟩ := List.mem_map.1 hw
      obtain ⟨-, s, hs, hsc, hm⟩ := h.made t ht
      exact Nat.pow_le_pow_right (by omega) (cnt_made hm (hf s hs hsc))
    have := List.sum_le_card_nsmul _ _ hle
    rw [List.length_map, smul_eq_mul] at this
    exact le_trans this (Nat.mul_le_mul_right _ (le_trans h.few hN))
  have h5 : N * (N + 1) ^ m < (N + 1) ^ (m + 1) := by
    rw [pow_succ, Nat.mul_comm]
    exact Nat.mul_lt_mul_of_pos_left (by omega) (by positivity)
  rw [h2, h3]
  omega

theorem cnt_variant {x : Tm} {r s : WRule W} (h : WVariant r s) : cnt x s.body ≤ cnt x r.body := by
  classical
  obtain ⟨ρ, -, -, h⟩ := h
  have : cnt x s.body = cnt x (r.body.map (renLit ρ)) := h.countP_eq _
  rw [this]
  exact cnt_map_le x _ (fun l => meets_ren) _

theorem weight_progEq {o : RuleOps (WRule W) S} (ho : Faithful o) {N : Nat} {x : Tm} {a b : List (WRule W)} (h : o.progEq false a b = true) :
    weight N x a = weight N x b := by
  obtain ⟨l, h1, h2⟩ := (RuleOps.C17_eq ho.lawful (by simp)).1 h
  have h3 : weight N x l = weight N x b := (h1.map fun r : WRule W => (N + 1) ^ cnt x r.body).sum_eq
  rw [← h3]
  clear h1 h3 h
  induction h2 with
  | nil => rfl
  | cons hs _ ih =>
    simp only [weight, List.map_cons, List.sum_cons] at ih ⊢
    rw [ih, le_antisymm (cnt_variant (ho.variant _ _ (ho.lawful.symm _ _ hs))) (cnt_variant (ho.variant _ _ hs))]

/-- **C78 (gone).**  If the definitions of `x` items do not use `x` items then the program that `unfold_x` returns has no subgoal
left that could be an `x` item. -/
theorem C78_gone {e : Env W S} (ho : Faithful e.eq) {x : Tm} {c : Const} {p q : Prog W} {k : Nat} (h : Run e x p k q)
    (ht : Target e x c p.inputs) (hp : Ok e p k) (hf : Flat x c p.rules) : Gone x q.rules := by
  induction h with
  | none h =>
    obtain ⟨as, rfl⟩ := ht.atom
    exact first_spec ⟨_, rfl⟩ hp.below h
  | same h he =>
    obtain ⟨i, j, r, q, new, hs⟩ := h.stepped ht hp
    have h1 := hs.decreases hf (le_refl _)
    rw [weight_progEq ho he] at h1
    omega
  | go h _ _ ih =>
    obtain ⟨i, j, r, q, new, hs⟩ := h.stepped ht hp
    exact ih (by rw [hs.ins]; exact ht) (hs.ok hp) (hs.flat hp hf)

theorem step_exists {e : Env W S} (he : e.Ok) {x : Tm} {c : Const} {p : Prog W} {k : Nat} (ht : Target e x c p.inputs) (hp : Ok e p k)
    {i j : Nat} (h : Evt fun f => first f k x p.rules 0 = some (some (i, j))) : ∃ p' k', Step e x p k p' k' := by
  obtain ⟨f0, hf0⟩ := h
  obtain ⟨r, q, a1, a2, a3, a4⟩ := ht.pre hp (hf0 f0 (le_refl _))
  obtain ⟨new, st, b1, b2, b3, b4⟩ := unfold_made a1 a2
  have hr : r ∈ p.rules := List.mem_of_getElem? a1.rule
  have hsig : ∀ s ∈ p.rules.erase r ++ new, isBuiltin e.sig s.head = false := by
    intro s hs
    rcases List.mem_append.1 hs with hs | hs
    · exact hp.sig s (List.mem_of_mem_erase hs)
    · obtain ⟨-, d, -, -, σ, ρ, cs, h1, -⟩ := b3 s hs
      rw [h1, sig_sub (hp.named r hr).rule.head]
      exact hp.sig r hr
  obtain ⟨F, hF⟩ := (b1.and (Prune.C37_fast_returns (fv := e.fv) (cv := e.cv) (k := st.k) hsig (fun t ht => (hp.inputs t ht).2) he.outs))
  obtain ⟨c1, q', c2⟩ := hF (max f0 F) (le_max_right _ _)
  exact ⟨_, _, max f0 F, i, j, _, st, q', hf0 _ (le_max_left _ _), c1, c2, rfl, rfl⟩

/-- `n` calls of `_unfold_x` in a row -/
inductive Steps (e : Env W S) (x : Tm) : Nat → Prog W → Nat → Prop
  | zero {p k} : Steps e x 0 p k
  | succ {n p k p' k'} : Step e x p k p' k' → Steps e x n p' k' → Steps e x (n + 1) p k

/-- **C78 (ends).**  If moreover the definitions of `x` items do not use `x` items then `unfold_x` returns, and the number of
unfoldings it makes is bounded: with `N` rules for the functor of `x`, a rule with `n` subgoals to unfold counts `(N + 1) ^ n`. -/
theorem C78_ends {e : Env W S} (he : e.Ok) {x : Tm} {c : Const} {p : Prog W} {k : Nat}
    (ht : Target e x c p.inputs) (hp : Ok e p k) (hf : Flat x c p.rules) :
    (∃ q, Run e x p k q) ∧ ∀ n, Steps e x n p k → n ≤ weight (defs c p.rules) x p.rules := by
  constructor
  · generalize hw : weight (defs c p.rules) x p.rules = w
    have main : ∀ (w N : Nat) (p : Prog W) (k : Nat), defs c p.rules ≤ N → weight N x p.rules ≤ w → Target e x c p.inputs → Ok e p k → Flat x c p.rules →
        ∃ q, Run e x p k q := by
      intro w
      induction w with
      | zero =>
        intro N p k hN hw ht hp hf
        obtain ⟨o, ho⟩ := first_evt k x p.rules 0
        cases o with
        | none => obtain ⟨f, hf⟩ := ho; exact ⟨p, .none (hf f (le_refl _))⟩
        | some ij =>
          obtain ⟨p', k', hs⟩ := step_exists he ht hp (i := ij.1) (j := ij.2) ho
          obtain ⟨i, j, r, q, new, hs'⟩ := hs.stepped ht hp
          have := hs'.decreases hf hN
          omega
      | succ w ih =>
        intro N p k hN hw ht hp hf
        obtain ⟨o, ho⟩ := first_evt k x p.rules 0
        cases o with
        | none => obtain ⟨f, hf⟩ := ho; exact ⟨p, .none (hf f (le_refl _))⟩
        | some ij =>
          obtain ⟨p', k', hs⟩ := step_exists he ht hp (i := ij.1) (j := ij.2) ho
          obtain ⟨i, j, r, q, new, hs'⟩ := hs.stepped ht hp
          have h1 := hs'.decreases hf hN
          have h2 := hs'.defs hp hf
          cases hq : e.eq.progEq false p'.rules p.rules with
          | true => exact ⟨p, .same hs hq⟩
          | false =>
            obtain ⟨q, hq'⟩ := ih N p' k' (le_trans h2 hN) (by omega) (by rw [hs'.ins]; exact ht) (hs'.ok hp) (hs'.flat hp hf)
            exact ⟨q, .go hs hq hq'⟩
    exact main w _ p k (le_refl _) (le_of_eq hw) ht hp hf
  · intro n h
    have main : ∀ {n p k}, Steps e x n p k → ∀ N, UnfoldX.defs c p.rules ≤ N → Target e x c p.inputs → Ok e p k → Flat x c p.rules → n ≤ weight N x p.rules := by
      intro n p k h
      induction h with
      | zero => intros; exact Nat.zero_le _
      | succ h _ ih =>
        intro N hN ht hp hf
        obtain ⟨i, j, r, q, new, hs⟩ := h.stepped ht hp
        have := ih N (le_trans (hs.defs hp hf) hN) (by rw [hs.ins]; exact ht) (hs.ok hp) (hs.flat hp hf)
        have := hs.decreases hf hN
        omega
    exact main h _ (le_refl _) ht hp hf

/-! ### Property C78: which subgoal, and refusals -/

/-- **C78 (first).**  What is unfolded is the first subgoal, in the order of the rules and of their bodies, that could be an `x` item;
`_unfold_x` returns nothing only if there is none. -/
theorem C78_first {f k : Nat} {x : Tm} (hx : ∃ as, x = .app as) {rules : List (WRule W)} (hb : ∀ r ∈ rules, Below k r) :
    (first f k x rules 0 = some none → Gone x rules) ∧
    ∀ i j, first f k x rules 0 = some (some (i, j)) → ∃ r l, rules[i]? = some r ∧ r.body[j]? = some l ∧ Meets x l ∧
      (∀ j' < j, ∀ l', r.body[j']? = some l' → ¬ Meets x l') ∧ ∀ i' < i, ∀ r', rules[i']? = some r' → ∀ l ∈ r'.body, ¬ Meets x l := by
  refine ⟨fun h => first_spec hx hb h, fun i j h => ?_⟩
  obtain ⟨m, r, l, rfl, h1, h2, h3, h4, h5⟩ := first_spec hx hb h
  exact ⟨r, l, by simpa using h1, h2, h3, h4, by simpa using h5⟩

/-- **C78 (inputs).**  If the first such subgoal can match an input then the call raises, whatever comes after it. -/
theorem C78_input_raises {e : Env W S} {x : Tm} (hx : ∃ as, x = .app as) {p : Prog W} {k i j : Nat} (hb : ∀ r ∈ p.rules, Below k r)
    {r : WRule W} {q : Tm} (hr : p.rules[i]? = some r) (hq : r.body[j]? = some (.sub q)) (hm : Meets (W := W) x (.sub q))
    (h1 : ∀ j' < j, ∀ l', r.body[j']? = some l' → ¬ Meets x l') (h2 : ∀ i' < i, ∀ r', p.rules[i']? = some r' → ∀ l ∈ r'.body, ¬ Meets x l)
    (hi : ∃ t ∈ p.inputs, ∃ θ, t.sub θ = q.sub θ) : Raises e x p k := by
  obtain ⟨o, ho⟩ := first_evt k x p.rules 0
  obtain ⟨F, hF⟩ := ho.and ((Unfold.C33_refuses (ops := e.ops) (inf := (infty : W)) (k := k) hr).2 q hq hi)
  obtain ⟨h3, out, h4⟩ := hF F (le_refl _)
  cases o with
  | none => exact absurd hm ((C78_first hx hb).1 h3 r (List.mem_of_getElem? hr) _ (List.mem_of_getElem? hq))
  | some ij =>
    obtain ⟨r', l, a1, a2, a3, a4, a5⟩ := (C78_first hx hb).2 ij.1 ij.2 h3
    have e1 : ij.1 = i := by
      rcases lt_trichotomy ij.1 i with h | h | h
      · exact absurd a3 (h2 _ h _ a1 _ (List.mem_of_getElem? a2))
      · exact h
      · exact absurd hm (a5 _ h _ hr _ (List.mem_of_getElem? hq))
    rw [e1, hr, Option.some.injEq] at a1
    subst a1
    have e2 : ij.2 = j := by
      rcases lt_trichotomy ij.2 j with h | h | h
      · exact absurd a3 (h1 _ h _ a2)
      · exact h
      · exact absurd hm (a4 _ h _ hq)
    obtain ⟨i', j'⟩ := ij
    simp only at e1 e2
    subst e1 e2
    exact ⟨F, _, _, out, _, _, h3, h4, by simp [Unfold.assertion]⟩

section Examples
open Unfold (at' ltOps)
open Fold (eqOps eqOps_faithful)

def cmpSig : Sigs := fun c n => (c == .str "<" || c == .str "=") && n == 2

def demoE : Env TV Unit := ⟨ltOps, cmpSig, fun i => 2 * i, fun i => 2 * i + 1, [at' "goal" []], eqOps⟩

theorem demoE_ok : demoE.Ok := by
  refine ⟨fun a b (h : 2 * a = 2 * b) => by omega, fun i j => by simp only [demoE]; omega, fun a b (h : 2 * a + 1 = 2 * b + 1) => by omega, fun c hc => ?_, by decide⟩
  rcases hc with hc | rfl
  · by_cases h : c = .str "<"
    · subst h; decide
    · exact absurd (by simp [demoE, ltOps, h]) hc
  · decide

/-- `goal += a(X) * b(X). a(X) += e(X). a(X) += c(X, Y) * (Y < 3). b(X) += a(X) * e(X).` with inputs `e(X)`, `c(X, Y)` -/
def demoU : Prog TV := ⟨[⟨at' "goal" [], [.sub (at' "a" [.var 0]), .sub (at' "b" [.var 0])]⟩, ⟨at' "a" [.var 1], [.sub (at' "e" [.var 1])]⟩,
  ⟨at' "a" [.var 2], [.sub (at' "c" [.var 2, .var 3]), .sub (at' "<" [.var 3, .con (.int 3)])]⟩,
  ⟨at' "b" [.var 4], [.sub (at' "a" [.var 4]), .sub (at' "e" [.var 4])]⟩], [at' "e" [.var 5], at' "c" [.var 6, .var 7]]⟩

theorem named_at {c : String} {as : List Tm} (h : ∀ t ∈ as, Order.Named t) : Order.Named (at' c as) := .app _ _ h

theorem demoU_ok : Ok demoE demoU 8 := by
  have nm : ∀ {c : String} {as : List Tm}, (∀ t ∈ as, (∃ n, t = .var n) ∨ ∃ c, t = .con c) → Order.Named (at' c as) := fun h =>
    named_at fun t ht => by rcases h t ht with ⟨n, rfl⟩ | ⟨c, rfl⟩; exacts [.var n, .con c]
  refine ⟨by unfold Below; decide, ?_, by decide, ?_, ?_, ?_⟩
  · intro r hr
    simp only [demoU, List.mem_cons, List.not_mem_nil, or_false] at hr
    rcases hr with rfl | rfl | rfl | rfl <;> exact ⟨_, _, rfl, by decide, by decide⟩
  · intro r hr q hq
    simp only [demoU, List.mem_cons, List.not_mem_nil, or_false] at hr
    rcases hr with rfl | rfl | rfl | rfl <;> simp only [List.mem_cons, Lit.sub.injEq, List.not_mem_nil, or_false] at hq
    · rcases hq with rfl | rfl <;> exact ⟨_, _, rfl, by decide, by decide⟩
    · subst hq; exact ⟨_, _, rfl, by decide, by decide⟩
    · rcases hq with rfl | rfl <;> exact ⟨_, _, rfl, by decide, by decide⟩
    · rcases hq with rfl | rfl <;> exact ⟨_, _, rfl, by decide, by decide⟩
  · intro r hr
    simp only [demoU, List.mem_cons, List.not_mem_nil, or_false] at hr
    rcases hr with rfl | rfl | rfl | rfl <;> refine ⟨⟨⟨_, _, rfl⟩, fun t ht => ?_⟩, nm (by simp), fun t ht => ?_⟩ <;>
      simp only [List.mem_cons, Lit.sub.injEq, List.not_mem_nil, or_false] at ht
    · rcases ht with rfl | rfl <;> exact ⟨_, _, rfl⟩
    · rcases ht with rfl | rfl <;> exact nm (by simp)
    · subst ht; exact ⟨_, _, rfl⟩
    · subst ht; exact nm (by simp)
    · rcases ht with rfl | rfl <;> exact ⟨_, _, rfl⟩
    · rcases ht with rfl | rfl <;> exact nm (by simp)
    · rcases ht with rfl | rfl <;> exact ⟨_, _, rfl⟩
    · rcases ht with rfl | rfl <;> exact nm (by simp)
  · intro t ht
    simp only [demoU, List.mem_cons, List.not_mem_nil, or_false] at ht
    rcases ht with rfl | rfl <;> exact ⟨nm (by simp), by decide⟩

theorem demoU_target : Target demoE (at' "a" [.var 0]) (.str "a") demoU.inputs := by
  refine ⟨⟨_, rfl⟩, ⟨by decide, by decide⟩, fun t ht => ?_⟩
  simp only [demoU, List.mem_cons, List.not_mem_nil, or_false] at ht
  rcases ht with rfl | rfl <;> exact ⟨_, _, rfl, by decide⟩

theorem demoU_flat : Flat (at' "a" [.var 0]) (.str "a") demoU.rules := by
  intro s hs hc l hl hm
  simp only [demoU, List.mem_cons, List.not_mem_nil, or_false] at hs
  rcases hs with rfl | rfl | rfl | rfl <;> simp [hfn] at hc <;> simp only [List.mem_cons, List.not_mem_nil, or_false] at hl
  · subst hl; obtain ⟨θ, φ, h⟩ := hm; simp at h
  · rcases hl with rfl | rfl <;> obtain ⟨θ, φ, h⟩ := hm <;> simp at h

/-- `unfold_x` on that program gets rid of `a` and keeps the value of `goal` -/
example {d : GTm → TV} (hd : Unfold.Data ltOps demoU.inputs d) : ∃ q, Run demoE (at' "a" [.var 0]) demoU 8 q ∧ Gone (at' "a" [.var 0]) q.rules ∧
    ∀ y, Prune.IsOutput [at' "goal" []] y → ∀ b, (∀ n, rounds demoU.rules d n y ≤ b) ↔ ∀ n, rounds q.rules d n y ≤ b := by
  obtain ⟨⟨q, h⟩, -⟩ := C78_ends demoE_ok demoU_target demoU_ok demoU_flat
  exact ⟨q, h, C78_gone eqOps_faithful h demoU_target demoU_ok demoU_flat, fun y hy b => C78_values demoE_ok h demoU_target demoU_ok hd hy b⟩

example : first 9 8 (at' "a" [.var 0]) demoU.rules 0 = some (some (0, 0)) := by decide +kernel

/-- asking to unfold an input raises -/
example : Raises demoE (at' "e" [.var 0]) demoU 8 := by
  refine C78_input_raises ⟨_, rfl⟩ demoU_ok.below (i := 1) (j := 0) (r := ⟨at' "a" [.var 1], [.sub (at' "e" [.var 1])]⟩) (q := at' "e" [.var 1]) rfl rfl
    ⟨fun _ => .var 0, fun _ => .var 0, by simp⟩ (by omega) ?_ ⟨at' "e" [.var 5], by simp [demoU], fun _ => .con (.int 0), by simp⟩
  intro i' hi' r' hr' l hl hm
  obtain rfl : i' = 0 := by omega
  simp only [demoU, List.getElem?_cons_zero, Option.some.injEq] at hr'
  subst hr'
  simp only [List.mem_cons, List.not_mem_nil, or_false] at hl
  rcases hl with rfl | rfl <;> obtain ⟨θ, φ, h⟩ := hm <;> simp at h

/-! ### It can stop early -/

/-- `a(1) += e. a(2) += a(2). goal += a(X).` with input `e` -/
def stuckP : Prog TV := ⟨[⟨at' "a" [.con (.int 1)], [.sub (at' "e" [])]⟩, ⟨at' "a" [.con (.int 2)], [.sub (at' "a" [.con (.int 2)])]⟩,
  ⟨at' "goal" [], [.sub (at' "a" [.var 0])]⟩], [at' "e" []]⟩

def stuckQ : List (WRule TV) := [⟨at' "a" [.con (.int 1)], [.sub (at' "e" [])]⟩, ⟨at' "goal" [], [.sub (at' "a" [.var 0])]⟩,
  ⟨at' "a" [.con (.int 2)], [.sub (at' "a" [.con (.int 2)])]⟩]

theorem infty_tv : (infty : TV) = .t := by rw [infty, show (isum fun _ : GTm => (1 : TV)) = .t from (TV.any_iff _).2 ⟨g0, rfl⟩]

def stuckEs : List (Hyper.HEdge Nat) := [⟨0, []⟩, ⟨2, [0]⟩, ⟨1, [2]⟩, ⟨2, [2]⟩]

theorem stuck_first : first 20 1 (at' "a" [.con (.int 2)]) stuckP.rules 0 = some (some (1, 0)) := by decide +kernel
theorem stuck_unfold : Unfold.unfold 20 ltOps TV.t 1 stuckP stuckP 1 0 =
    some (stuckQ, ⟨[(⟨at' "a" [.con (.int 2)], [.sub (at' "a" [.con (.int 2)])]⟩, some 1)], 1⟩, .done) := by decide +kernel
theorem stuck_coarsen : ∃ S : TSet, S.xs = [at' "e" [], at' "goal" [], at' "a" [.var 1]] ∧ S.k = 5 ∧
    Prune.coarsen cmpSig (fun i => 2 * i) (fun i => 2 * i + 1) 20 1 stuckQ [at' "e" []] [at' "goal" []] = some (S, stuckEs, [0], [1]) := by
  have h3 : (Prune.coarsen cmpSig (fun i => 2 * i) (fun i => 2 * i + 1) 20 1 stuckQ [at' "e" []] [at' "goal" []]).map (fun x => (x.1.xs, x.1.k, x.2)) =
      some ([at' "e" [], at' "goal" [], at' "a" [.var 1]], 5, stuckEs, [0], [1]) := by decide +kernel
  obtain ⟨⟨S, y⟩, h4, h5⟩ := Option.map_eq_some_iff.1 h3
  simp only [Prod.mk.injEq] at h5
  obtain ⟨h6, h7, rfl⟩ := h5
  exact ⟨S, h6, h7, h4⟩
theorem stuck_active : Prune.allSome (Prune.active cmpSig (fun i => 2 * i) 20 ⟨[at' "e" [], at' "goal" [], at' "a" [.var 1]], 5⟩ {0, 1, 2}) stuckQ =
    some [true, true, true] := by decide +kernel

theorem stuck_useful {C T : Finset Nat} (h : Hyper.Reachability (Prune.build stuckEs) [0].toFinset [1].toFinset C T) : T = {0, 1, 2} := by
  have hT := (Hyper.C42_exact (Prune.build_built stuckEs) h).2
  have t0 : Nonempty (Hyper.Tree stuckEs ([0].toFinset : Finset Nat) 0) := ⟨.input 0 (by simp)⟩
  have t2 : Nonempty (Hyper.Tree stuckEs ([0].toFinset : Finset Nat) 2) :=
    ⟨.edge ⟨2, [0]⟩ (by simp [stuckEs]) fun i => by
      have : (⟨2, [0]⟩ : Hyper.HEdge Nat).body.get i = 0 := by
        have := List.get_mem (⟨2, [0]⟩ : Hyper.HEdge Nat).body i
        simpa using this
      rw [this]; exact .input 0 (by simp)⟩
  have u1 : Hyper.Useful stuckEs ([0].toFinset : Finset Nat) [1].toFinset 1 := .out (by simp)
  have u2 : Hyper.Useful stuckEs ([0].toFinset : Finset Nat) [1].toFinset 2 := .down (e := ⟨1, [2]⟩) (by simp [stuckEs]) u1 (by simp) t2
  have u0 : Hyper.Useful stuckEs ([0].toFinset : Finset Nat) [1].toFinset 0 := .down (e := ⟨2, [0]⟩) (by simp [stuckEs]) u2 (by simp) t0
  ext y
  rw [hT]
  constructor
  · intro h
    cases h with
    | out h => simp at h; simp [h]
    | down he _ hb _ =>
      simp only [stuckEs, List.mem_cons, List.not_mem_nil, or_false] at he
      rcases he with rfl | rfl | rfl | rfl <;> simp at hb <;> simp [hb]
  · intro h
    simp only [Finset.mem_insert, Finset.mem_singleton] at h
    rcases h with rfl | rfl | rfl
    exacts [u0, u1, u2]

theorem stuck_fast : Prune.Fast cmpSig (fun i => 2 * i) (fun i => 2 * i + 1) 20 1 stuckQ [at' "e" []] [at' "goal" []] stuckQ := by
  obtain ⟨⟨xs, k⟩, h1, h2, h3⟩ := stuck_coarsen
  simp only at h1 h2
  subst h1 h2
  obtain ⟨C, T, hR⟩ := Hyper.C42_total (Prune.build_built stuckEs) [0].toFinset [1].toFinset
  obtain rfl := stuck_useful hR
  exact ⟨_, _, _, _, C, _, _, h3, hR, stuck_active, by simp [stuckQ]⟩

theorem stuck_eq : eqOps.progEq false stuckQ stuckP.rules = true := by
  rw [RuleOps.C17_eq eqOps_faithful.lawful (by simp)]
  exact ⟨stuckQ, List.Perm.cons _ (List.Perm.swap _ _ _), List.forall₂_same.2 fun r _ => eqOps_faithful.lawful.refl r⟩

theorem stuck_step : Step demoE (at' "a" [.con (.int 2)]) stuckP 1 ⟨stuckQ, stuckP.inputs⟩ 1 := by
  refine ⟨20, 1, 0, stuckQ, ⟨[(⟨at' "a" [.con (.int 2)], [.sub (at' "a" [.con (.int 2)])]⟩, some 1)], 1⟩, stuckQ, stuck_first, ?_, stuck_fast, rfl, rfl⟩
  rw [infty_tv]
  exact stuck_unfold

/-- **C78 (stops early).**  If the first subgoal that could be an `x` item only has itself as definition, then unfolding it gives an
equal program and `unfold_x` returns at once, although other rules have such subgoals too. -/
theorem C78_stops_early : Run demoE (at' "a" [.con (.int 2)]) stuckP 1 stuckP ∧
    ∃ r ∈ stuckP.rules, hfn r.head ≠ some (.str "a") ∧ ∃ l ∈ r.body, Meets (at' "a" [.con (.int 2)]) l := by
  refine ⟨.same stuck_step stuck_eq, ⟨at' "goal" [], [.sub (at' "a" [.var 0])]⟩, by simp [stuckP], by decide, _, List.mem_singleton.2 rfl, .var,
    fun _ => .con (.int 2), by simp⟩

end Examples

end UnfoldX
end Verif
