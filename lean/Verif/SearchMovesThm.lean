/-
Property C85: what the search returns has the values of the original program.
-/
import Verif.SearchMoves
import Verif.SearchThm
import Verif.MeasureThm
import Verif.HookThm
import Verif.GeneralizeThm
import Verif.MeasureWit

set_option linter.unusedSectionVars false
set_option linter.unusedSimpArgs false

namespace Verif
open Tm Heap Sem
open Solver (noHeap)

namespace SearchMoves
open Measure (Rec Ival Folded addRef defineM unfoldM foldM anyO WF zeroMeasure)
open Unfold (Prog Ops unfold Pre Data Below UserHead Modelled Shape subLit)
open Fold (fold minus safeByRev Faithful WVariant)
open Hook (genName genName_inj syms litFn absorb revRule define rest picked)
open Measure (isBuiltin)
variable {W : Type}

/-! ### Names -/

/-- the names of a rule -/
def names (r : WRule W) : List Const := (hfn r.head).toList ++ r.body.filterMap litFn

theorem mem_names {r : WRule W} {c : Const} : c ∈ names r ↔ hfn r.head = some c ∨ ∃ t, Lit.sub t ∈ r.body ∧ hfn t = some c := by
  unfold names
  rw [List.mem_append, Option.mem_toList, List.mem_filterMap]
  refine or_congr Iff.rfl ⟨?_, ?_⟩
  · rintro ⟨l, hl, e⟩
    cases l with
    | val k => simp [litFn] at e
    | sub t => exact ⟨t, hl, e⟩
  · rintro ⟨t, ht, e⟩; exact ⟨_, ht, e⟩

theorem mem_syms {p : Prog W} {c : Const} : c ∈ syms p ↔ ∃ r ∈ p.rules, c ∈ names r := by
  unfold syms; rw [List.mem_flatMap]; rfl

theorem hfn_sub {t : Tm} (h : Named t) (σ : Nat → Tm) : hfn (t.sub σ) = hfn t := by
  obtain ⟨c, as, rfl⟩ := h
  simp [Tm.sub, Tm.subL, hfn]

theorem body_names {b : List (Lit W)} (h : ∀ t, Lit.sub t ∈ b → Named t) (σ : Nat → Tm) {c : Const} :
    (∃ t, Lit.sub t ∈ b.map (subLit σ) ∧ hfn t = some c) ↔ ∃ t, Lit.sub t ∈ b ∧ hfn t = some c := by
  constructor
  · rintro ⟨t, ht, e⟩
    obtain ⟨u, hu, rfl⟩ := Measure.sub_mem_map ht
    exact ⟨u, hu, by rw [← e, hfn_sub (h u hu)]⟩
  · rintro ⟨t, ht, e⟩
    exact ⟨t.sub σ, List.mem_map.2 ⟨_, ht, rfl⟩, by rw [hfn_sub (h t ht), e]⟩

section
variable [CSemi W] [DecidableEq W]

/-- the names of a resolvent -/
theorem shape_names {ops : Ops} {r s t : WRule W} {j : Nat} {c : Const} (h : Shape r.head (r.body.take j) (r.body.drop (j + 1)) s t) (hr : WF ops r) (hs : WF ops s)
    (hc : c ∈ names t) : c ∈ names r ∨ c ∈ names s := by
  obtain ⟨σ, τ, v, h1, h2⟩ := h
  rcases mem_names.1 hc with e | ⟨u, hu, e⟩
  · rw [h1, hfn_sub (Measure.UserHead.named hr.head)] at e
    exact .inl (mem_names.2 (.inl e))
  · rw [h2] at hu
    simp only [List.mem_append] at hu
    rcases hu with ((hu | hu) | hu) | hu
    · obtain ⟨w, hw, e'⟩ := (body_names (fun t ht => hr.body t (List.mem_of_mem_take ht)) σ).1 ⟨u, hu, e⟩
      exact .inl (mem_names.2 (.inr ⟨w, List.mem_of_mem_take hw, e'⟩))
    · obtain ⟨w, hw, e'⟩ := (body_names hs.body τ).1 ⟨u, hu, e⟩
      exact .inr (mem_names.2 (.inr ⟨w, hw, e'⟩))
    · obtain ⟨w, hw, e'⟩ := (body_names (fun t ht => hr.body t (List.mem_of_mem_drop ht)) σ).1 ⟨u, hu, e⟩
      exact .inl (mem_names.2 (.inr ⟨w, List.mem_of_mem_drop hw, e'⟩))
    · simp at hu

/-- the names of the rule, but for the subgoal resolved, are in the resolvent -/
theorem names_shape {ops : Ops} {r s t : WRule W} {j : Nat} {q : Tm} {c : Const} (h : Shape r.head (r.body.take j) (r.body.drop (j + 1)) s t) (hr : WF ops r)
    (hj : r.body[j]? = some (.sub q)) (hc : c ∈ names r) : c ∈ names t ∨ hfn q = some c := by
  obtain ⟨σ, τ, v, h1, h2⟩ := h
  rcases mem_names.1 hc with e | ⟨u, hu, e⟩
  · exact .inl (mem_names.2 (.inl (by rw [h1, hfn_sub (Measure.UserHead.named hr.head), e])))
  · rw [Unfold.split_body hj] at hu
    simp only [List.mem_append, List.mem_cons, Lit.sub.injEq] at hu
    rcases hu with hu | rfl | hu
    · obtain ⟨w, hw, e'⟩ := (body_names (fun t ht => hr.body t (List.mem_of_mem_take ht)) σ).2 ⟨u, hu, e⟩
      exact .inl (mem_names.2 (.inr ⟨w, by rw [h2]; simp only [List.mem_append]; tauto, e'⟩))
    · exact .inr e
    · obtain ⟨w, hw, e'⟩ := (body_names (fun t ht => hr.body t (List.mem_of_mem_drop ht)) σ).2 ⟨u, hu, e⟩
      exact .inl (mem_names.2 (.inr ⟨w, by rw [h2]; simp only [List.mem_append]; tauto, e'⟩))

theorem variant_names {ops : Ops} {r s : WRule W} (h : WVariant r s) (hr : WF ops r) {c : Const} (hc : c ∈ names r) : c ∈ names s := by
  obtain ⟨ρ, _, h2, h3⟩ := h
  have : r.body.map (renLit ρ) = r.body.map (subLit fun n => .var (ρ n)) := List.map_congr_left fun l _ => Measure.renLit_eq ρ l
  rcases mem_names.1 hc with e | ⟨u, hu, e⟩
  · exact mem_names.2 (.inl (by rw [h2, hfn_sub (Measure.UserHead.named hr.head), e]))
  · obtain ⟨w, hw, e'⟩ := (body_names hr.body fun n => .var (ρ n)).2 ⟨u, hu, e⟩
    exact mem_names.2 (.inr ⟨w, by rw [h3.mem_iff, this]; exact hw, e'⟩)

/-- what unfolding makes; each definition used has the functor of the subgoal -/
theorem unfold_out {ops : Ops} {f k : Nat} {p d : Prog W} {i j : Nat} {r : WRule W} {q : Tm} (h : Pre ops k p d i j r q) (hq : UserHead ops q)
    {rules : List (WRule W)} {st : Unfold.US W} (e : unfold f ops infty k p d i j = some (rules, st, .done)) :
    rules = p.rules.erase r ++ st.out.map Prod.fst ∧
      ∀ t ∈ st.out, ∃ s ∈ d.rules, hfn s.head = hfn q ∧ Shape r.head (r.body.take j) (r.body.drop (j + 1)) s t.1 := by
  have hb := Unfold.split_body h.goal
  have hr : r = ⟨r.head, r.body.take j ++ .sub q :: r.body.drop (j + 1)⟩ := by rw [← hb]
  obtain ⟨c, as, rfl, ho, hc⟩ := hq
  have hun : Unfold.unmodelled c = false := by
    obtain ⟨c', as', h1, h2, _⟩ := h.kind
    simp only [Tm.app.injEq, List.cons.injEq, Tm.con.injEq] at h1
    rw [h1.1]; exact h2
  obtain ⟨new, k', h1, h2, h3, h4, h5⟩ := Unfold.loop_lift (K := k) (q := .app (.con c :: as)) (head := r.head)
    (L := r.body.take j) (R := r.body.drop (j + 1)) (hr ▸ h.below) (Unfold.offers d.rules c) ⟨[], k⟩ (le_refl _)
  have ev : Evt (fun f => unfold f ops infty k p d i j = some (p.rules.erase r ++ new.map Prod.fst, ⟨new, k'⟩, .done)) := by
    refine (h1.and (Unfold.isInput_evt h.notInput)).mono fun f e => ?_
    have : Unfold.lookup f ops d.rules (.app (.con c :: as)) (Unfold.resolvent f infty r.head (r.body.take j) (r.body.drop (j + 1))) noHeap ⟨[], k⟩ =
        Solver.forEach (Unfold.offers d.rules c) (Unfold.tryRule f (.app (.con c :: as)) (Unfold.resolvent f infty r.head (r.body.take j) (r.body.drop (j + 1)))) noHeap ⟨[], k⟩ := by
      simp only [Unfold.lookup, hun, ho]
      simp only [Bool.false_eq_true, if_false]
      split
      · exact absurd rfl hc
      · rfl
    simp only [unfold, h.rule, h.goal, e.2, this, e.1, List.nil_append]
  have := Unfold.unfold_det e ev
  simp only [Prod.mk.injEq, and_true] at this
  obtain ⟨rfl, rfl⟩ := this
  refine ⟨rfl, fun t ht => ?_⟩
  obtain ⟨_, s, i', c2, c3, c4⟩ := h3 t ht
  simp only [Unfold.offers, List.mem_filter, beq_iff_eq] at c3
  exact ⟨s, List.mem_of_getElem? (List.mk_mem_zipIdx_iff_getElem?.1 c3.1), c3.2, c4⟩

variable {S' : Type} [DecidableEq S']

/-- the program and the constraints of `unfoldM` -/
theorem unfoldM_inv {ops : Ops} {f k id : Nat} {P D R : Rec W} {i j : Nat} {inf : W} (h : unfoldM f ops inf k id P D i j = some R) :
    ∃ rules st, unfold f ops inf k P.prog D.prog i j = some (rules, st, .done) ∧ R.prog = ⟨rules, P.prog.inputs⟩ ∧ R.lineage = (id, []) :: P.lineage ∧
      (R.ok = true → P.ok = true ∧ D.ok = true) := by
  unfold unfoldM at h
  split at h
  · rename_i rules st e
    refine ⟨rules, st, e, ?_⟩
    simp only at h
    split at h
    · cases h
    · cases h; exact ⟨rfl, rfl, fun ok => by simp [Rec.ok, zeroMeasure] at ok⟩
    · split at h
      · split at h
        · cases h
        · cases h
          refine ⟨rfl, rfl, fun ok => ?_⟩
          simp only [Rec.ok, Measure.Env.ok_append] at ok
          exact ok.1
      · cases h
  · cases h

/-- the program and the constraints of `foldM`, and what its checks say -/
theorem foldM_inv {o : RuleOps (WRule W) S'} {ord : List Nat → List Nat} {ops : Ops} {inf : W} {code : W → Const} {pick : List (Folded W) → Option (Folded W)}
    {f k id : Nat} {P D R : Rec W} {r : WRule W} {S : Finset Nat} {j : Nat} (h : foldM f o ord ops inf code pick k id P D r S j = some R) :
    R.prog = fold P.prog r S ∧ R.lineage = (id, []) :: P.lineage ∧ (R.ok = true → P.ok = true ∧ D.ok = true ∧
      ∃ u st, unfold f ops inf k (fold P.prog r S) D.prog 0 j = some (u, st, .done) ∧ o.progEq false P.prog.rules u = true ∧ st.out ≠ []) := by
  unfold foldM at h
  simp only at h
  split at h
  · rename_i u st e
    split at h
    · cases h
    · rename_i heq
      split at h
      · cases h
      · cases h; exact ⟨rfl, rfl, fun ok => by simp [Rec.ok, zeroMeasure] at ok⟩
      · split at h
        · cases h
        · rename_i pairs epairs
          split at h
          · cases h
          · rename_i es ees
            split at h
            · rename_i lo hi rest elo ehi erest
              cases h
              refine ⟨rfl, rfl, fun ok => ?_⟩
              simp only [Rec.ok, Measure.Env.ok_append] at ok
              refine ⟨ok.1.1, ok.1.2, u, st, e, by simpa using heq, fun hn => ?_⟩
              rw [hn] at epairs
              have h1 := congrArg List.length (allSome_eq_some.1 epairs)
              have h2 := congrArg List.length (allSome_eq_some.1 ees)
              simp only [List.zipIdx_nil, List.map_nil, List.length_nil, List.length_map] at h1 h2
              have h3 : es = [] := List.length_eq_zero_iff.1 (by omega)
              have := (Measure.minOf_mem elo).1
              simp [h3] at this
            · cases h
  · cases h

/-- the names of a folded program, if the checks pass -/
theorem fold_names {o : RuleOps (WRule W) S'} (ho : Faithful o) {ops : Ops} {f k : Nat} {p d : Prog W} {r : WRule W} {q : Tm} {S : Finset Nat} {j : Nat}
    {u : List (WRule W)} {st : Unfold.US W} (pre : Pre ops k (fold p r S) d 0 j r q) (hq : UserHead ops q) (hr : WF ops r) (hd : ∀ s ∈ d.rules, WF ops s)
    (e : unfold f ops infty k (fold p r S) d 0 j = some (u, st, .done)) (he : o.progEq false p.rules u = true) (hn : st.out ≠ []) :
    (∃ s ∈ d.rules, hfn s.head = hfn q) ∧ ∀ c ∈ names r, c ∈ syms p ∨ c ∈ syms d := by
  obtain ⟨h1, h2⟩ := unfold_out pre hq e
  obtain ⟨t, ht⟩ := List.exists_mem_of_ne_nil _ hn
  obtain ⟨s, hs, e1, e2⟩ := h2 t ht
  refine ⟨⟨s, hs, e1⟩, fun c hc => ?_⟩
  rcases names_shape e2 hr pre.goal hc with h | h
  · left
    have he' := Measure.progEq_symm ho.lawful he
    obtain ⟨p', a1, a2⟩ := (RuleOps.C17_eq ho.lawful (by simp)).1 he'
    have hm : t.1 ∈ u := by rw [h1]; exact List.mem_append_right _ (List.mem_map.2 ⟨t, ht, rfl⟩)
    obtain ⟨n, hn⟩ := List.getElem?_of_mem hm
    have hlt : n < p'.length := by rw [← a2.length_eq]; exact (List.getElem?_eq_some_iff.1 hn).1
    have := Measure.forall₂_at a2 n t.1 p'[n] hn (List.getElem?_eq_getElem hlt)
    exact mem_syms.2 ⟨p'[n], a1.mem_iff.1 (List.getElem_mem hlt), variant_names (ho.variant _ _ this) (Measure.shape_wf e2 hr (hd s hs)) h⟩
  · right
    exact mem_syms.2 ⟨s, hs, mem_names.2 (.inl (e1.trans h))⟩

/-! ### Spec: what is assumed -/

/-- the subgoal `q` of rule `r` can be unfolded: it is no builtin and no input -/
structure Goal (ops : Ops) (inputs : List Tm) (k : Nat) (r : WRule W) (q : Tm) : Prop where
  below : Below k r
  kind : Modelled ops q
  user : UserHead ops q
  plain : isBuiltin ops q = false
  notInput : ∀ t ∈ inputs, ∀ θ φ, gsub θ t ≠ gsub φ q

/-- what is assumed of a move of the program with lineage `L` -/
def Fit (e : Env W S') (L : List (Stage W)) : Move W → Prop
  | .unfold _ k i j => ∀ P L' r q, L = P :: L' → P.R.prog.rules[i]? = some r → r.body[j]? = some (.sub q) →
      Goal e.ops P.R.prog.inputs k r q ∧ P.R.prog.rules.Nodup
  | .unfoldBy _ k _ i j => ∀ P L' r q, L = P :: L' → P.R.prog.rules[i]? = some r → r.body[j]? = some (.sub q) →
      Goal e.ops P.R.prog.inputs k r q ∧ P.R.prog.rules.Nodup
  | .hook _ k i js _ => ∀ P L' r, L = P :: L' → P.R.prog.rules[i]? = some r →
      Below k r ∧ js.Nodup ∧ P.R.prog.rules.Pairwise fun r s => e.o.same r s = false
  | .fold _ k _ r _ j => ∀ P L', L = P :: L' → WF e.ops r ∧ (∃ q, r.body[j]? = some (.sub q) ∧ Goal e.ops P.R.prog.inputs k r q) ∧
      P.R.prog.rules.Pairwise fun r s => e.o.same r s = false

/-- ... and of all moves of a sequence -/
def AllFit (e : Env W S') (a : Nat → Int) (root : Prog W) (c : Nat) : List (Move W) → Prop
  | [] => True
  | m :: ms => AllFit e a root c ms ∧ ∀ L, run e a root c ms = some L → Fit e L m

/-- what is assumed of the parts that do not change, and of the original program: no name in it is one that is generated later -/
structure Setup (e : Env W S') (root : Prog W) (c : Nat) : Prop where
  same : Faithful e.o
  order : ∀ l, (e.ord l).Perm l
  picks : ∀ l t, e.pick l = some t → t ∈ l
  inf : e.inf = infty
  vars : Hook.Lists e.vord
  gen : ∀ g, c < g → Hook.NameOK e.ops root.inputs (genName g)
  rules : ∀ r ∈ root.rules, WF e.ops r
  fresh : ∀ n ∈ syms root, ∀ g, c < g → n ≠ genName g

/-! ### The lineage -/

/-- what holds of a stage by itself -/
structure Good (e : Env W S') (root : Prog W) (s : Stage W) : Prop where
  ok : s.R.ok = true
  inputs : s.R.prog.inputs = root.inputs
  wf : ∀ r ∈ s.R.prog.rules, WF e.ops r
  base : ∀ r ∈ s.base, WF e.ops r
  fresh : ∀ n ∈ syms s.R.prog, ∀ g, s.c < g → n ≠ genName g

/-- what is between two stages -/
def Later (s P : Stage W) : Prop :=
  ∃ news, P.base = s.base ++ news ∧ s.c ≤ P.c ∧ ∀ r ∈ news, ∃ g, s.c < g ∧ hfn r.head = some (genName g)

theorem Later.refl (s : Stage W) : Later s s := ⟨[], by simp, le_refl _, by simp⟩

theorem Later.same {s P Q : Stage W} (h : Later s P) (hb : Q.base = P.base) (hc : Q.c = P.c) : Later s Q := by
  obtain ⟨n, h1, h2, h3⟩ := h
  exact ⟨n, hb.trans h1, hc ▸ h2, h3⟩

theorem Later.snoc {s P Q : Stage W} {r : WRule W} (h : Later s P) (hb : Q.base = P.base ++ [r]) (hc : P.c < Q.c) (hr : hfn r.head = some (genName Q.c)) : Later s Q := by
  obtain ⟨n, h1, h2, h3⟩ := h
  refine ⟨n ++ [r], by rw [hb, h1, List.append_assoc], by omega, fun t ht => ?_⟩
  rcases List.mem_append.1 ht with ht | ht
  · exact h3 t ht
  · rw [List.mem_singleton.1 ht]; exact ⟨Q.c, by omega, hr⟩

theorem firstAppears_mem {f : Nat} {x : Tm} {P D : Stage W} : ∀ {l : List (Stage W)}, firstAppears f x P l = some D → D = P ∨ (D ∈ l ∧ isItem f D.R.prog x = some true)
  | [], h => .inl (by simpa [firstAppears] using h.symm)
  | s :: l, h => by
    rw [firstAppears] at h
    cases hi : isItem f s.R.prog x with
    | none => rw [hi] at h; simp at h
    | some b =>
      rw [hi] at h
      cases b with
      | true => simp only [Option.some.injEq] at h; subst h; exact .inr ⟨by simp, hi⟩
      | false =>
        rcases firstAppears_mem (l := l) h with h | ⟨h, h'⟩
        · exact .inl h
        · exact .inr ⟨List.mem_cons_of_mem _ h, h'⟩

theorem anyO_true {α : Type} {g : α → Option Bool} : ∀ {l : List α}, anyO g l = some true → ∃ x ∈ l, g x = some true
  | [], h => by simp [anyO] at h
  | x :: l, h => by
    rw [anyO] at h
    cases hx : g x with
    | none => rw [hx] at h; simp at h
    | some b => cases hl : anyO g l with
      | none => rw [hx, hl] at h; simp at h
      | some b' =>
        rw [hx, hl] at h
        simp only [Option.some.injEq, Bool.or_eq_true] at h
        rcases h with rfl | rfl
        · exact ⟨x, by simp, hx⟩
        · obtain ⟨y, h1, h2⟩ := anyO_true hl; exact ⟨y, List.mem_cons_of_mem _ h1, h2⟩

theorem isItem_fn {ops : Ops} {f : Nat} {p : Prog W} {x : Tm} (hp : ∀ r ∈ p.rules, WF ops r) (hx : UserHead ops x) (h : isItem f p x = some true) :
    ∃ r ∈ p.rules, hfn r.head = hfn x := by
  obtain ⟨r, hr, e⟩ := anyO_true h
  obtain ⟨θ, hθ⟩ := (DisjointEst.empty_unifies e).1 rfl
  exact ⟨r, hr, by rw [← hfn_sub (Measure.UserHead.named (hp r hr).head) θ, hθ, hfn_sub (Measure.UserHead.named hx)]⟩

/-- the subgoals of a rule have names of the program -/
theorem goal_name {p : Prog W} {r : WRule W} {q : Tm} {i j : Nat} {n : Const} (hr : p.rules[i]? = some r) (hq : r.body[j]? = some (.sub q)) (hn : hfn q = some n) : n ∈ syms p :=
  mem_syms.2 ⟨r, List.mem_of_getElem? hr, mem_names.2 (.inr ⟨q, List.mem_of_getElem? hq, hn⟩)⟩

theorem head_name {p : Prog W} {r : WRule W} {n : Const} (hr : r ∈ p.rules) (hn : hfn r.head = some n) : n ∈ syms p :=
  mem_syms.2 ⟨r, hr, mem_names.2 (.inl hn)⟩

/-- one move: the program it starts from, the definitions, and what it makes -/
inductive Made (e : Env W S') (a : Nat → Int) (L : List (Stage W)) : List (Stage W) → Prop
  | unfold {P D : Stage W} {L' R r q} {f k id i j : Nat} (hL : L = P :: L') (hD : D ∈ L) (hfn : ∃ n ∈ syms D.R.prog, hfn q = some n)
      (h : unfoldM f e.ops e.inf k id P.R D.R i j = some R) (pre : Pre e.ops k P.R.prog D.R.prog i j r q) (hq : Goal e.ops P.R.prog.inputs k r q)
      (nd : P.R.prog.rules.Nodup) : Made e a L (⟨R, none, P.base, P.c⟩ :: L)
  | define {P : Stage W} {L' D ix tmp} {id c : Nat} (hL : L = P :: L') (hc : P.c < c) (hfn : hfn tmp.head = some (genName c)) (hw : WF e.ops tmp)
      (hn : ∀ n ∈ names tmp, n ∈ syms P.R.prog ∨ n = genName c)
      (h : defineM e.sym a P.base.length id P.R [tmp] = some D) : Made e a L (⟨D, ix, P.base ++ [tmp], c⟩ :: L)
  | fold {P D : Stage W} {L' R r q} {f k id j : Nat} {S : Finset Nat} (hL : L = P :: L') (hD : D ∈ L)
      (h : foldM f e.o e.ord e.ops e.inf e.code e.pick k id P.R D.R r S j = some R) (pre : Pre e.ops k (fold P.R.prog r S) D.R.prog 0 j r q)
      (hq : Goal e.ops P.R.prog.inputs k r q) (hr : WF e.ops r) (nd : P.R.prog.rules.Pairwise fun r s => e.o.same r s = false) :
      Made e a L (⟨R, none, P.base, P.c⟩ :: L)

/-- the invariant of a lineage -/
structure Lin (e : Env W S') (root : Prog W) (L : List (Stage W)) : Prop where
  good : ∀ s ∈ L, Good e root s
  later : ∀ P L', L = P :: L' → ∀ s ∈ L, Later s P

theorem lin_made {e : Env W S'} {root : Prog W} {c0 : Nat} (hS : Setup e root c0) {a : Nat → Int} {L L1 : List (Stage W)} (h : Made e a L L1) (hL1 : Lin e root L)
    {P1 : Stage W} {L' : List (Stage W)} (hP : L1 = P1 :: L') (ok : P1.R.ok = true) : Lin e root L1 := by
  have fin : ∀ {P : Stage W}, L1 = P1 :: L → Good e root P1 → (∀ s ∈ L, Later s P1) → Lin e root L1 := by
    intro P e1 hg hl
    refine ⟨fun s hs => ?_, fun P' L'' e2 s hs => ?_⟩
    · rw [e1] at hs
      rcases List.mem_cons.1 hs with rfl | hs
      · exact hg
      · exact hL1.good s hs
    · rw [e1] at hs e2
      obtain ⟨rfl, _⟩ := List.cons.inj e2
      rcases List.mem_cons.1 hs with rfl | hs
      · exact .refl _
      · exact hl s hs
  cases h with
  | @unfold P D L2 R r q f k id i j hL hD hf h pre hq nd =>
    cases hP
    obtain ⟨rules, st, h1, h2, _, h4⟩ := unfoldM_inv h
    rw [hS.inf] at h1
    obtain ⟨rfl, h5⟩ := unfold_out pre hq.user h1
    have gP := hL1.good P (by rw [hL]; simp)
    have gD := hL1.good D hD
    have lD := hL1.later P L2 hL D hD
    have hmem := List.mem_of_getElem? pre.rule
    refine fin (P := P) rfl ⟨ok, by rw [h2]; exact gP.inputs, fun t ht => ?_, gP.base, fun n hn g hg => ?_⟩ fun s hs => (hL1.later P L2 hL s hs).same rfl rfl
    · rw [h2] at ht
      rcases List.mem_append.1 ht with ht | ht
      · exact gP.wf t (List.mem_of_mem_erase ht)
      · obtain ⟨x, hx, rfl⟩ := List.mem_map.1 ht
        obtain ⟨s, hs, _, e2⟩ := h5 x hx
        exact Measure.shape_wf e2 (gP.wf r hmem) (gD.wf s hs)
    · obtain ⟨t, ht, hn⟩ := mem_syms.1 hn
      rw [h2] at ht
      rcases List.mem_append.1 ht with ht | ht
      · exact gP.fresh n (mem_syms.2 ⟨t, List.mem_of_mem_erase ht, hn⟩) g hg
      · obtain ⟨x, hx, rfl⟩ := List.mem_map.1 ht
        obtain ⟨s, hs, _, e2⟩ := h5 x hx
        rcases shape_names e2 (gP.wf r hmem) (gD.wf s hs) hn with hn | hn
        · exact gP.fresh n (mem_syms.2 ⟨r, hmem, hn⟩) g hg
        · exact gD.fresh n (mem_syms.2 ⟨s, hs, hn⟩) g (by obtain ⟨_, _, h, _⟩ := lD; simp only at hg; omega)
  | @define P L2 D ix tmp id c hL hc hf hw hn h =>
    cases hP
    have gP := hL1.good P (by rw [hL]; simp)
    unfold defineM at h
    split at h
    · cases h
    · cases h
      refine fin (P := P) rfl ⟨ok, gP.inputs, fun t ht => ?_, fun t ht => ?_, fun n hn' g hg => ?_⟩ fun s hs => (hL1.later P L2 hL s hs).snoc rfl hc hf
      · rcases List.mem_append.1 ht with ht | ht
        · exact gP.wf t ht
        · rw [List.mem_singleton.1 ht]; exact hw
      · rcases List.mem_append.1 ht with ht | ht
        · exact gP.base t ht
        · rw [List.mem_singleton.1 ht]; exact hw
      · simp only at hg
        have old : ∀ n ∈ syms P.R.prog, n ≠ genName g := fun n hn => gP.fresh n hn g (by omega)
        obtain ⟨t, ht, hn'⟩ := mem_syms.1 hn'
        rcases List.mem_append.1 ht with ht | ht
        · exact old n (mem_syms.2 ⟨t, ht, hn'⟩)
        · rw [List.mem_singleton.1 ht] at hn'
          rcases hn n hn' with h | rfl
          · exact old n h
          · exact fun h => by have := genName_inj h; omega
  | @fold P D L2 R r q f k id j S hL hD h pre hq hr nd =>
    cases hP
    obtain ⟨h1, _, h3⟩ := foldM_inv h
    obtain ⟨_, _, u, st, h4, h5, h6⟩ := h3 ok
    rw [hS.inf] at h4
    have gP := hL1.good P (by rw [hL]; simp)
    have gD := hL1.good D hD
    have lD := hL1.later P L2 hL D hD
    obtain ⟨_, hnm⟩ := fold_names hS.same pre hq.user hr gD.wf h4 h5 h6
    refine fin (P := P) rfl ⟨ok, by rw [h1]; exact gP.inputs, fun t ht => ?_, gP.base, fun n hn g hg => ?_⟩ fun s hs => (hL1.later P L2 hL s hs).same rfl rfl
    · rw [h1] at ht
      rcases List.mem_cons.1 ht with rfl | ht
      · exact hr
      · exact gP.wf t (Measure.minus_subset t ht)
    · obtain ⟨t, ht, hn⟩ := mem_syms.1 hn
      rw [h1] at ht
      have oldP : ∀ n ∈ syms P.R.prog, n ≠ genName g := fun n hn => gP.fresh n hn g hg
      rcases List.mem_cons.1 ht with rfl | ht
      · rcases hnm n hn with h | h
        · exact oldP n h
        · exact gD.fresh n h g (by obtain ⟨_, _, h, _⟩ := lD; simp only at hg; omega)
      · exact oldP n (mem_syms.2 ⟨t, Measure.minus_subset t ht, hn⟩)

theorem step_unfold {e : Env W S'} {a : Nat → Int} {L L1 : List (Stage W)} {f k i j : Nat} (h : step e a L (.unfold f k i j) = some L1) :
    ∃ P L' r q D R, L = P :: L' ∧ P.R.prog.rules[i]? = some r ∧ r.body[j]? = some (.sub q) ∧ firstAppears f q P L.reverse = some D ∧
      unfoldM f e.ops e.inf k L.length P.R D.R i j = some R ∧ L1 = ⟨R, none, P.base, P.c⟩ :: L := by
  cases L with
  | nil => simp [step] at h
  | cons P L' =>
    simp only [step] at h
    split at h
    · cases h
    · rename_i r hr
      split at h
      · rename_i q hq
        split at h
        · cases h
        · rename_i D hD
          split at h
          · cases h
          · rename_i R hR
            exact ⟨P, L', r, q, D, R, rfl, hr, hq, hD, hR, (Option.some.inj h).symm⟩
      · cases h

theorem step_unfoldBy {e : Env W S'} {a : Nat → Int} {L L1 : List (Stage W)} {f k d i j : Nat} (h : step e a L (.unfoldBy f k d i j) = some L1) :
    ∃ P L' r q D R, L = P :: L' ∧ P.R.prog.rules[i]? = some r ∧ r.body[j]? = some (.sub q) ∧ L[d]? = some D ∧ isItem f D.R.prog q = some true ∧
      unfoldM f e.ops e.inf k L.length P.R D.R i j = some R ∧ L1 = ⟨R, none, P.base, P.c⟩ :: L := by
  cases L with
  | nil => simp [step] at h
  | cons P L' =>
    simp only [step] at h
    split at h
    · cases h
    · rename_i r hr
      split at h
      · rename_i q hq
        split at h
        · cases h
        · rename_i D hD
          split at h
          · cases h
          · rename_i hi
            split at h
            · cases h
            · rename_i R hR
              exact ⟨P, L', r, q, D, R, rfl, hr, hq, hD, by simpa using hi, hR, (Option.some.inj h).symm⟩
      · cases h

theorem step_hook {e : Env W S'} {a : Nat → Int} {L L1 : List (Stage W)} {f k i c : Nat} {js : List Nat} (h : step e a L (.hook f k i js c) = some L1) :
    ∃ P L' r D R, L = P :: L' ∧ P.R.prog.rules[i]? = some r ∧ P.c < c ∧ genName c ∉ syms P.R.prog ∧
      defineM e.sym a P.base.length L.length P.R [absorb e.vord r js (genName c)] = some D ∧
      foldM f e.o e.ord e.ops e.inf e.code e.pick k (L.length + 1) D D (revRule r (absorb e.vord r js (genName c)) js) {i} 0 = some R ∧
      L1 = ⟨R, none, P.base ++ [absorb e.vord r js (genName c)], c⟩ ::
        ⟨D, some [P.R.prog.rules.length], P.base ++ [absorb e.vord r js (genName c)], c⟩ :: L := by
  cases L with
  | nil => simp [step] at h
  | cons P L' =>
    simp only [step] at h
    split at h
    · cases h
    · rename_i r hr
      split at h
      · cases h
      · rename_i hc
        simp only [Bool.or_eq_true, decide_eq_true_eq, not_or, not_le] at hc
        split at h
        · cases h
        · rename_i D hD
          split at h
          · cases h
          · split at h
            · cases h
            · rename_i R hR
              exact ⟨P, L', r, D, R, rfl, hr, hc.1.2, hc.2, hD, hR, (Option.some.inj h).symm⟩

theorem step_fold {e : Env W S'} {a : Nat → Int} {L L1 : List (Stage W)} {f k d j : Nat} {r : WRule W} {S : Finset Nat} (h : step e a L (.fold f k d r S j) = some L1) :
    ∃ P L' D R, L = P :: L' ∧ D ∈ L ∧ foldM f e.o e.ord e.ops e.inf e.code e.pick k L.length P.R D.R r S j = some R ∧
      L1 = ⟨R, none, P.base, P.c⟩ :: L := by
  cases L with
  | nil => simp [step] at h
  | cons P L' =>
    simp only [step] at h
    split at h
    · cases h
    · rename_i D hD
      split at h
      · cases h
      · split at h
        · cases h
        · rename_i R hR
          exact ⟨P, L', D, R, rfl, List.mem_of_getElem? hD, hR, (Option.some.inj h).symm⟩

theorem defineM_inv {sym : Bool} {a : Nat → Int} {b id : Nat} {P D : Rec W} {news : List (WRule W)} (h : defineM sym a b id P news = some D) :
    D.prog = define P.prog news ∧ (D.ok = true → P.ok = true) := by
  unfold defineM at h
  split at h
  · cases h
  · cases h
    refine ⟨rfl, fun ok => ?_⟩
    simp only [Rec.ok, Measure.Env.ok_append] at ok
    exact ok.1

/-- the constraints of a program include those of the program it was made from -/
theorem step_ok {e : Env W S'} {a : Nat → Int} {L L' : List (Stage W)} {m : Move W} {P1 : Stage W} (h : step e a L m = some (P1 :: L')) (ok : P1.R.ok = true) :
    ∃ P L'', L = P :: L'' ∧ P.R.ok = true := by
  cases m with
  | unfold f k i j =>
    obtain ⟨P, L'', r, q, D, R, rfl, _, _, _, h1, h2⟩ := step_unfold h
    cases h2
    obtain ⟨_, _, _, _, _, h4⟩ := unfoldM_inv h1
    exact ⟨P, L'', rfl, (h4 ok).1⟩
  | unfoldBy f k d i j =>
    obtain ⟨P, L'', r, q, D, R, rfl, _, _, _, _, h1, h2⟩ := step_unfoldBy h
    cases h2
    obtain ⟨_, _, _, _, _, h4⟩ := unfoldM_inv h1
    exact ⟨P, L'', rfl, (h4 ok).1⟩
  | hook f k i js c =>
    obtain ⟨P, L'', r, D, R, rfl, _, _, _, h1, h2, h3⟩ := step_hook h
    cases h3
    exact ⟨P, L'', rfl, (defineM_inv h1).2 ((foldM_inv h2).2.2 ok).1⟩
  | fold f k d r S j =>
    obtain ⟨P, L'', D, R, rfl, _, h1, h2⟩ := step_fold h
    cases h2
    exact ⟨P, L'', rfl, ((foldM_inv h1).2.2 ok).1⟩

/-! ### The definition that a hook makes -/

theorem gen_ne {g : Nat} {s : String} (h : s.toList.take 2 ≠ ['$', 'g']) : genName g ≠ .str s := by
  intro e
  simp only [genName, Const.str.injEq] at e
  rw [← e] at h
  apply h
  rw [String.toList_append]
  rfl

theorem gen_user (ops : Ops) {g : Nat} (h : ops (genName g) = none) (as : List Tm) : isBuiltin ops (.app (.con (genName g) :: as)) = false := by
  match as with
  | [] => rfl
  | [x] => simp [isBuiltin, gen_ne (g := g) (s := "$free") (by decide), gen_ne (g := g) (s := "$bound") (by decide)]
  | [x, y] => simp [isBuiltin, h, gen_ne (g := g) (s := "is") (by decide), gen_ne (g := g) (s := "=") (by decide), gen_ne (g := g) (s := "$not_matches") (by decide)]
  | _ :: _ :: _ :: _ => rfl

theorem absorb_wf {ops : Ops} {ord : Finset Nat → List Nat} {r : WRule W} {js : List Nat} {g : Nat} {ins : List Tm} (hn : Hook.NameOK ops ins (genName g)) (hr : WF ops r) :
    WF ops (absorb ord r js (genName g)) :=
  ⟨⟨_, _, rfl, hn.ops, hn.eq⟩, gen_user ops hn.ops _, fun t ht => hr.body t (Hook.mem_picked ht)⟩

theorem absorb_names {ord : Finset Nat → List Nat} {r : WRule W} {js : List Nat} {n c : Const} (h : n ∈ names (absorb ord r js c)) : n ∈ names r ∨ n = c := by
  rcases mem_names.1 h with h | ⟨t, ht, h⟩
  · right; simpa [absorb, hfn] using h.symm
  · exact .inl (mem_names.2 (.inr ⟨t, Hook.mem_picked ht, h⟩))

theorem rev_wf {ops : Ops} {ord : Finset Nat → List Nat} {r : WRule W} {js : List Nat} {c : Const} (hr : WF ops r) : WF ops (revRule r (absorb ord r js c) js) := by
  refine ⟨hr.head, hr.user, fun t ht => ?_⟩
  rcases List.mem_cons.1 ht with h | h
  · cases h; exact ⟨_, _, rfl⟩
  · exact hr.body t (Hook.mem_rest h)

theorem rev_goal {ops : Ops} {ord : Finset Nat → List Nat} (ho : Hook.Lists ord) {r : WRule W} {js : List Nat} {g k : Nat} {ins : List Tm} (hn : Hook.NameOK ops ins (genName g)) (hk : Below k r) :
    Goal ops ins k (revRule r (absorb ord r js (genName g)) js) (absorb ord r js (genName g)).head := by
  refine ⟨fun n hn => hk n ?_, ⟨_, _, rfl, hn.modelled, fun h => ?_⟩, ⟨_, _, rfl, hn.ops, hn.eq⟩, gen_user ops hn.ops _, fun t ht θ φ e => ?_⟩
  · have hb : ∀ {l : List (Lit W)}, (∀ x ∈ l, x ∈ r.body) → ∀ m ∈ bodyVars l, m ∈ bodyVars r.body := by
      intro l hl m hm
      obtain ⟨x, hx, h⟩ := mem_bodyVars.1 hm
      exact mem_bodyVars.2 ⟨x, hl x hx, h⟩
    have hv := Hook.vars_absorb ho r js (genName g)
    simp only [rvars, revRule, Finset.mem_union] at hn ⊢
    rcases hn with hn | hn
    · exact .inl hn
    · obtain ⟨x, hx, h⟩ := mem_bodyVars.1 hn
      rcases List.mem_cons.1 hx with rfl | hx
      · simp only [litVars] at h
        rw [hv] at h
        simp only [Hook.outVars, Finset.mem_sdiff] at h
        exact .inr (hb (fun x hx => Hook.mem_picked hx) n h.1)
      · exact .inr (hb (fun x hx => Hook.mem_rest hx) n (mem_bodyVars.2 ⟨x, hx, h⟩))
  · rcases h with h | h
    · exact absurd hn.ops h
    · exact absurd h hn.eq
  · refine hn.input t ht θ ?_
    rw [e]
    rfl

/-! ### From moves to steps -/

/-- a lineage built in steps, each of which keeps the invariant -/
inductive Chain (e : Env W S') (a : Nat → Int) (root : Prog W) (c : Nat) : List (Stage W) → Prop
  | first : Chain e a root c [first e a root c]
  | more {L L1} (h : Chain e a root c L) (hm : Made e a L L1) (hl : Lin e root L) (hl1 : Lin e root L1) (hok : ∀ s ∈ L1.head?, s.R.ok = true) : Chain e a root c L1

theorem lin_first {e : Env W S'} {root : Prog W} {c : Nat} (hS : Setup e root c) {a : Nat → Int} (ok : (first e a root c).R.ok = true) : Lin e root [first e a root c] := by
  refine ⟨fun s hs => ?_, fun P L' h s hs => ?_⟩
  · rw [List.mem_singleton.1 hs]
    exact ⟨ok, rfl, hS.rules, hS.rules, hS.fresh⟩
  · cases h
    rw [List.mem_singleton.1 hs]
    exact .refl _

theorem same_head {ops : Ops} {o : RuleOps (WRule W) S'} (ho : Faithful o) {r s : WRule W} (hr : WF ops r) (h : o.same r s = true) : hfn s.head = hfn r.head := by
  obtain ⟨ρ, _, h2, _⟩ := ho.variant _ _ h
  rw [h2, hfn_sub (Measure.UserHead.named hr.head)]

theorem chain_step {e : Env W S'} {root : Prog W} {c0 : Nat} (hS : Setup e root c0) {a : Nat → Int} {L L' : List (Stage W)} {m : Move W} {P1 : Stage W}
    (hC : Chain e a root c0 L) (hL : Lin e root L) (hc : ∀ s ∈ L, c0 ≤ s.c) (hF : Fit e L m) (h : step e a L m = some (P1 :: L')) (ok : P1.R.ok = true) :
    Chain e a root c0 (P1 :: L') ∧ Lin e root (P1 :: L') ∧ ∀ s ∈ P1 :: L', c0 ≤ s.c := by
  cases m with
  | unfold f k i j =>
    obtain ⟨P, L2, r, q, D, R, hPL, hr, hq, hD, h1, h2⟩ := step_unfold h
    cases h2
    obtain ⟨hg, nd⟩ := hF P L2 r q hPL hr hq
    have gP := hL.good P (by rw [hPL]; simp)
    have hDm : D ∈ L ∧ ∃ n ∈ syms D.R.prog, hfn q = some n := by
      obtain ⟨n, as, rfl, _⟩ := hg.user
      rcases firstAppears_mem hD with rfl | ⟨h3, h4⟩
      · exact ⟨by rw [hPL]; simp, n, goal_name hr hq rfl, rfl⟩
      · have h3 : D ∈ L := List.mem_reverse.1 h3
        obtain ⟨s, hs, e1⟩ := isItem_fn (hL.good D h3).wf hg.user h4
        exact ⟨h3, n, head_name hs e1, rfl⟩
    have gD := hL.good D hDm.1
    have pre : Pre e.ops k P.R.prog D.R.prog i j r q := ⟨hr, hq, hg.below, fun s hs => (gD.wf s hs).head, hg.kind, by rw [gD.inputs, ← gP.inputs]; exact hg.notInput⟩
    have hm : Made e a L (⟨R, none, P.base, P.c⟩ :: L) := .unfold hPL hDm.1 hDm.2 h1 pre hg nd
    have hl := lin_made hS hm hL rfl ok
    refine ⟨.more hC hm hL hl (by simpa using ok), hl, fun s hs => ?_⟩
    rcases List.mem_cons.1 hs with rfl | hs
    · exact hc P (by rw [hPL]; simp)
    · exact hc s hs
  | unfoldBy f k d i j =>
    obtain ⟨P, L2, r, q, D, R, hPL, hr, hq, hD, hi, h1, h2⟩ := step_unfoldBy h
    cases h2
    obtain ⟨hg, nd⟩ := hF P L2 r q hPL hr hq
    have gP := hL.good P (by rw [hPL]; simp)
    have hDL := List.mem_of_getElem? hD
    have gD := hL.good D hDL
    have hDm : ∃ n ∈ syms D.R.prog, hfn q = some n := by
      obtain ⟨s, hs, e1⟩ := isItem_fn gD.wf hg.user hi
      obtain ⟨n, as, rfl, _⟩ := hg.user
      exact ⟨n, head_name hs e1, rfl⟩
    have pre : Pre e.ops k P.R.prog D.R.prog i j r q := ⟨hr, hq, hg.below, fun s hs => (gD.wf s hs).head, hg.kind, by rw [gD.inputs, ← gP.inputs]; exact hg.notInput⟩
    have hm : Made e a L (⟨R, none, P.base, P.c⟩ :: L) := .unfold hPL hDL hDm h1 pre hg nd
    have hl := lin_made hS hm hL rfl ok
    refine ⟨.more hC hm hL hl (by simpa using ok), hl, fun s hs => ?_⟩
    rcases List.mem_cons.1 hs with rfl | hs
    · exact hc P (by rw [hPL]; simp)
    · exact hc s hs
  | hook f k i js c =>
    obtain ⟨P, L2, r, D, R, hPL, hr, hlt, hns, h1, h2, h3⟩ := step_hook h
    obtain ⟨hb, hjs, nd⟩ := hF P L2 r hPL hr
    have hPm : P ∈ L := by rw [hPL]; simp
    have gP := hL.good P hPm
    have hmem := List.mem_of_getElem? hr
    have hcP := hc P hPm
    have hn := hS.gen c (by omega)
    set tmp := absorb e.vord r js (genName c) with htmp
    have hw : WF e.ops tmp := absorb_wf hn (gP.wf r hmem)
    have htf : hfn tmp.head = some (genName c) := rfl
    cases h3
    have okD : D.ok = true := ((foldM_inv h2).2.2 ok).1
    have hm : Made e a L (⟨D, some [P.R.prog.rules.length], P.base ++ [tmp], c⟩ :: L) := by
      refine .define hPL hlt htf hw (fun n hn => ?_) h1
      rcases absorb_names hn with h | h
      · exact .inl (mem_syms.2 ⟨r, hmem, h⟩)
      · exact .inr h
    have hl := lin_made hS hm hL rfl okD
    have hDp := (defineM_inv h1).1
    have gD := hl.good _ List.mem_cons_self
    have hg := rev_goal (js := js) hS.vars hn hb
    have pre : Pre e.ops k (fold D.prog (revRule r tmp js) {i}) D.prog 0 0 (revRule r tmp js) tmp.head :=
      ⟨rfl, rfl, hg.below, fun s hs => (gD.wf s hs).head, hg.kind, by rw [show D.prog.inputs = root.inputs from gD.inputs]; exact hg.notInput⟩
    have nd' : D.prog.rules.Pairwise fun r s => e.o.same r s = false := by
      rw [hDp]
      refine List.pairwise_append.2 ⟨nd, by simp, fun x hx y hy => ?_⟩
      rw [List.mem_singleton.1 hy]
      cases hxy : e.o.same x tmp with
      | false => rfl
      | true => exact absurd (head_name hx ((same_head hS.same (gP.wf x hx) hxy).symm.trans htf)) hns
    have hm2 : Made e a (⟨D, some [P.R.prog.rules.length], P.base ++ [tmp], c⟩ :: L) (⟨R, none, P.base ++ [tmp], c⟩ :: ⟨D, some [P.R.prog.rules.length], P.base ++ [tmp], c⟩ :: L) :=
      .fold rfl List.mem_cons_self h2 pre (by rw [show D.prog.inputs = root.inputs from gD.inputs]; exact hg) (rev_wf (gP.wf r hmem)) nd'
    have hl2 := lin_made hS hm2 hl rfl ok
    refine ⟨.more (.more hC hm hL hl (by simpa using okD)) hm2 hl hl2 (by simpa using ok), hl2, fun s hs => ?_⟩
    rcases List.mem_cons.1 hs with rfl | hs
    · simp only; omega
    · rcases List.mem_cons.1 hs with rfl | hs
      · simp only; omega
      · exact hc s hs
  | fold f k d r S j =>
    obtain ⟨P, L2, D, R, hPL, hDm, h1, h2⟩ := step_fold h
    cases h2
    obtain ⟨hw, ⟨q, hq, hg⟩, nd⟩ := hF P L2 hPL
    have gP := hL.good P (by rw [hPL]; simp)
    have gD := hL.good D hDm
    have pre : Pre e.ops k (fold P.R.prog r S) D.R.prog 0 j r q := ⟨rfl, hq, hg.below, fun s hs => (gD.wf s hs).head, hg.kind, by rw [gD.inputs, ← gP.inputs]; exact hg.notInput⟩
    have hm : Made e a L (⟨R, none, P.base, P.c⟩ :: L) := .fold hPL hDm h1 pre hg hw nd
    have hl := lin_made hS hm hL rfl ok
    refine ⟨.more hC hm hL hl (by simpa using ok), hl, fun s hs => ?_⟩
    rcases List.mem_cons.1 hs with rfl | hs
    · exact hc P (by rw [hPL]; simp)
    · exact hc s hs

theorem run_chain {e : Env W S'} {root : Prog W} {c0 : Nat} (hS : Setup e root c0) {a : Nat → Int} : ∀ {ms : List (Move W)} {P : Stage W} {L : List (Stage W)},
    AllFit e a root c0 ms → run e a root c0 ms = some (P :: L) → P.R.ok = true →
    Chain e a root c0 (P :: L) ∧ Lin e root (P :: L) ∧ ∀ s ∈ P :: L, c0 ≤ s.c
  | [], P, L, _, h, ok => by
    cases h
    exact ⟨.first, lin_first hS ok, fun s hs => by rw [List.mem_singleton.1 hs]; exact le_refl _⟩
  | m :: ms, P, L, hF, h, ok => by
    rw [run] at h
    cases h0 : run e a root c0 ms with
    | none => rw [h0] at h; cases h
    | some L0 =>
      rw [h0] at h
      obtain ⟨Q, L2, rfl, ok'⟩ := step_ok h ok
      obtain ⟨h1, h2, h3⟩ := run_chain hS hF.1 h0 ok'
      exact chain_step hS h1 h2 h3 (hF.2 _ h0) h ok

/-! ### The steps are those of C49 -/

/-- the environment of C49; `F` are the rules that the unknowns stand for -/
def envOf (e : Env W S') (a : Nat → Int) (F : List (WRule W)) : Measure.Env W S' :=
  ⟨e.o, e.ord, e.ops, e.code, e.pick, e.sym, a, fun i => F.getD i ⟨.var 0, []⟩, F.length⟩

/-- what is between a stage and the end -/
def Ends (s : Stage W) (F : List (WRule W)) : Prop := ∃ news, F = s.base ++ news ∧ ∀ r ∈ news, ∃ g, s.c < g ∧ hfn r.head = some (genName g)

theorem Later.ends {s P : Stage W} {F : List (WRule W)} (h : Later s P) (hP : Ends P F) : Ends s F := by
  obtain ⟨n, h1, h2, h3⟩ := h
  obtain ⟨n', h4, h5⟩ := hP
  refine ⟨n ++ n', by rw [h4, h1, List.append_assoc], fun r hr => ?_⟩
  rcases List.mem_append.1 hr with hr | hr
  · exact h3 r hr
  · obtain ⟨g, h6, h7⟩ := h5 r hr; exact ⟨g, by omega, h7⟩

theorem complete {e : Env W S'} {a : Nat → Int} {root : Prog W} {D : Stage W} (gD : Good e root D) {F : List (WRule W)} (hF : ∀ r ∈ F, WF e.ops r) (hE : Ends D F) {q : Tm} {n : Const}
    (hq : UserHead e.ops q) (hn : n ∈ syms D.R.prog) (hqn : hfn q = some n) : (envOf e a F).Complete (List.range D.base.length) q := by
  intro i hi hnot θ φ he
  obtain ⟨news, h1, h2⟩ := hE
  have hi : i < F.length := hi
  have hge : D.base.length ≤ i := by simpa [List.mem_range] using hnot
  have hB : (envOf e a F).B i = F[i] := by simp [envOf, List.getD_eq_getElem?_getD, hi]
  have hmem : F[i] ∈ news := by
    have : F[i] = news[i - D.base.length]'(by rw [h1, List.length_append] at hi; omega) := by
      simp only [h1]
      rw [List.getElem_append_right hge]
    rw [this]; exact List.getElem_mem _
  obtain ⟨g, h3, h4⟩ := h2 _ hmem
  rw [hB] at he
  have h5 := congrArg (fun x : GTm => hfn x.1) he
  have e1 : hfn (gsub θ F[i].head).1 = some (genName g) := by rw [← h4]; exact hfn_gsub (Measure.UserHead.named (hF _ (List.getElem_mem hi)).head) θ
  have e2 : hfn (gsub φ q).1 = some n := by rw [← hqn]; exact hfn_gsub (Measure.UserHead.named hq) φ
  have h5 := e1.symm.trans (h5.trans e2)
  exact gD.fresh n hn g h3 (Option.some.inj h5).symm

end

section
variable [OSemi W] [DecidableEq W] {S' : Type} [DecidableEq S']

theorem chain_reach {e : Env W S'} {root : Prog W} {c0 : Nat} (hS : Setup e root c0) {a : Nat → Int} {F : List (WRule W)} (hF : ∀ r ∈ F, WF e.ops r) {L : List (Stage W)} (hC : Chain e a root c0 L) :
    (∀ P ∈ L.head?, Ends P F) → ∀ s ∈ L, (envOf e a F).Reach root s.R (List.range s.base.length) := by
  induction hC with
  | first =>
    intro hE s hs
    rw [List.mem_singleton.1 hs]
    obtain ⟨news, h1, _⟩ := hE _ rfl
    have h1 : F = root.rules ++ news := h1
    refine .root 0 (by simp [envOf, h1]) fun i r hr => ?_
    have hi := (List.getElem?_eq_some_iff.1 hr).1
    simp [envOf, h1, List.getD_eq_getElem?_getD, List.getElem?_append_left hi, hr]
  | @more L L1 hC hm hl hl1 hok ih =>
    intro hE s hs
    have old : ∀ {P1 : Stage W}, L1 = P1 :: L → (∀ P ∈ L.head?, Ends P F) ∧ ∀ s ∈ L1, Ends s F := by
      intro P1 e1
      have hE1 := hE P1 (by rw [e1]; rfl)
      have : ∀ s ∈ L1, Ends s F := fun s hs => (hl1.later P1 L e1 s hs).ends hE1
      refine ⟨fun P hP => this P ?_, this⟩
      rw [e1]; exact List.mem_cons_of_mem _ (List.mem_of_mem_head? hP)
    cases hm with
    | @unfold P D L2 R r q f k id i j hL hD hf h pre hq nd =>
      obtain ⟨h1, h2⟩ := old rfl
      rcases List.mem_cons.1 hs with rfl | hs
      · obtain ⟨n, hn, hqn⟩ := hf
        rw [hS.inf] at h
        exact .unfold (E := envOf e a F) (ih h1 P (by rw [hL]; simp)) (ih h1 D hD) h pre hq.user hq.plain nd (complete (hl.good D hD) hF (h2 D (List.mem_cons_of_mem _ hD)) hq.user hn hqn)
      · exact ih h1 s hs
    | @define P L2 D ix tmp id c hL hc hf hw hn h =>
      obtain ⟨h1, h2⟩ := old rfl
      rcases List.mem_cons.1 hs with rfl | hs
      · obtain ⟨news, h3, _⟩ := h2 _ List.mem_cons_self
        have h3 : F = P.base ++ [tmp] ++ news := h3
        have := Measure.Env.Reach.define (E := envOf e a F) (ih h1 P (by rw [hL]; simp)) h (by simp [envOf, h3]) (fun i r hr => by
          cases i with
          | zero => simp at hr; subst hr; simp [envOf, h3, List.getD_eq_getElem?_getD]
          | succ i => simp at hr) (fun i hi => by simp)
        simpa [List.range_succ] using this
      · exact ih h1 s hs
    | @fold P D L2 R r q f k id j S hL hD h pre hq hr nd =>
      obtain ⟨h1, h2⟩ := old rfl
      rcases List.mem_cons.1 hs with rfl | hs
      · have ok := hok _ rfl
        obtain ⟨_, _, u, st, h4, h5, h6⟩ := (foldM_inv h).2.2 ok
        rw [hS.inf] at h h4
        obtain ⟨⟨t, ht, e1⟩, _⟩ := fold_names hS.same pre hq.user hr (hl.good D hD).wf h4 h5 h6
        obtain ⟨n, as, hqn⟩ : ∃ n as, q = .app (.con n :: as) := by obtain ⟨n, as, h, _⟩ := hq.user; exact ⟨n, as, h⟩
        have hqn : hfn q = some n := by rw [hqn]; rfl
        exact .fold (E := envOf e a F) (ih h1 P (by rw [hL]; simp)) (ih h1 D hD) h pre hq.user hq.plain hr nd
          (complete (hl.good D hD) hF (h2 D (List.mem_cons_of_mem _ hD)) hq.user (head_name ht (e1.trans hqn)) hqn)
      · exact ih h1 s hs

/-- the items of generated names -/
def Generated (c : Nat) (x : GTm) : Prop := ∃ g, c < g ∧ IsFn (genName g) x

/-- the values of the rules `rs` are those of the program, except for items of generated names -/
def Agrees (ops : Ops) (root : Prog W) (c : Nat) (rs : List (WRule W)) : Prop :=
  ∀ d : GTm → W, Data ops root.inputs d → ∀ x, ¬ Generated c x → ∀ w, (∀ k, rounds rs d k x ≤ w) ↔ ∀ k, rounds root.rules d k x ≤ w

/-- **C85 (moves).**  If the constraints of a program that was made by moves of the search hold for some values of the unknowns, naive evaluation of
the program has the same upper bounds as naive evaluation of the original program, for every item that is not of a generated name, from any data. -/
theorem C85_sound {e : Env W S'} {root : Prog W} {c0 : Nat} (hS : Setup e root c0) {a : Nat → Int} {ms : List (Move W)} (hF : AllFit e a root c0 ms)
    {P : Stage W} {L : List (Stage W)} (h : run e a root c0 ms = some (P :: L)) (ok : P.R.ok = true) : Agrees e.ops root c0 P.R.prog.rules := by
  obtain ⟨hC, hL, -⟩ := run_chain hS hF h ok
  intro d hd x hx w
  have gP := hL.good P List.mem_cons_self
  have hE : Ends P P.base := ⟨[], by simp, by simp⟩
  have hR := chain_reach hS gP.base hC (fun Q hQ => by cases hQ; exact hE) P List.mem_cons_self
  have hfair : (envOf e a P.base).Fair := ⟨hS.same, hS.order, hS.picks, fun i hi => by
    have hi : i < P.base.length := hi
    have : (envOf e a P.base).B i = P.base[i] := by simp [envOf, List.getD_eq_getElem?_getD, hi]
    rw [this]; exact gP.base _ (List.getElem_mem hi)⟩
  have h1 := Measure.C49_sound hfair hR ok (List.Perm.refl _) hd x w
  have h2 : (List.range (envOf e a P.base).n).map (envOf e a P.base).B = P.base := by
    refine List.ext_getElem (by simp [envOf]) fun i h1 h2 => ?_
    simp [envOf, List.getD_eq_getElem?_getD, h2]
  rw [h2] at h1
  rw [h1]
  have hfirst : first e a root c0 ∈ P :: L := by
    clear h1 h2 hfair hR hE gP hL
    generalize P :: L = M at hC
    induction hC with
    | first => simp
    | more _ hm _ _ _ ih => cases hm <;> exact List.mem_cons_of_mem _ ih
  obtain ⟨news, h3, _, h4⟩ := hL.later P L rfl _ hfirst
  have h3 : P.base = root.rules ++ news := h3
  have h5 := fun k => Hook.C35_define (N := Generated c0) (p := root) (defs := news)
    (fun r hr => ⟨fun θ ⟨g, hg, hh⟩ => by
        have hn := Measure.UserHead.named (hS.rules r hr).head
        have hh : hfn (gsub θ r.head).1 = some (genName g) := hh
        rw [hfn_gsub hn] at hh
        exact hS.fresh _ (head_name hr hh) g hg rfl,
      fun t ht θ ⟨g, hg, hh⟩ => by
        have hh : hfn (gsub θ t).1 = some (genName g) := hh
        rw [hfn_gsub ((hS.rules r hr).body t ht)] at hh
        exact hS.fresh _ (mem_syms.2 ⟨r, hr, mem_names.2 (.inr ⟨t, ht, hh⟩)⟩) g hg rfl⟩)
    (fun r hr θ => by
      obtain ⟨g, hg, hh⟩ := h4 r hr
      refine ⟨g, hg, ?_⟩
      show hfn (gsub θ r.head).1 = _
      rw [hfn_gsub (Measure.UserHead.named (gP.base r (by rw [h3]; exact List.mem_append_right _ hr)).head), hh]) d k x hx
  rw [h3]
  exact forall_congr' fun k => by rw [show rounds (root.rules ++ news) d k x = _ from h5 k]

/-! ### The programs do not depend on the values of the unknowns -/

/-- alike but for the measure -/
structure Alike (P Q : Rec W) : Prop where
  prog : P.prog = Q.prog
  lin : P.lineage = Q.lineage
  len : P.m.length = Q.m.length

theorem allSome_iff {α β γ : Type} {f : γ → Option α} {g : γ → Option β} : ∀ {l : List γ}, (∀ x ∈ l, (f x).isSome = (g x).isSome) →
    (allSome (l.map f) = none ∧ allSome (l.map g) = none) ∨ ∃ u v, allSome (l.map f) = some u ∧ allSome (l.map g) = some v ∧ u.length = v.length
  | [], _ => .inr ⟨[], [], rfl, rfl, rfl⟩
  | x :: l, h => by
    have hx := h x (by simp)
    have ih := allSome_iff (l := l) fun y hy => h y (List.mem_cons_of_mem _ hy)
    cases hf : f x with
    | none =>
      have hg : g x = none := by rw [hf] at hx; simpa using hx.symm
      left; simp [allSome, hf, hg]
    | some u =>
      obtain ⟨v, hg⟩ : ∃ v, g x = some v := by rw [hf] at hx; exact Option.isSome_iff_exists.1 (by simpa using hx.symm)
      rcases ih with ⟨h1, h2⟩ | ⟨us, vs, h1, h2, h3⟩
      · left; simp [allSome, hf, hg, h1, h2]
      · right; exact ⟨u :: us, v :: vs, by simp [allSome, hf, h1], by simp [allSome, hg, h2], by simp [h3]⟩

theorem get_isSome {α : Type} {l m : List α} (h : l.length = m.length) (i : Nat) : (l[i]?).isSome = (m[i]?).isSome := by
  rw [Bool.eq_iff_iff]; simp [h]

theorem copied_alike {P Q : Rec W} (h : Alike P Q) (rs : List (WRule W)) :
    (Measure.copied P rs = none ∧ Measure.copied Q rs = none) ∨ ∃ u v, Measure.copied P rs = some u ∧ Measure.copied Q rs = some v ∧ u.length = v.length := by
  unfold Measure.copied
  rw [h.prog]
  exact allSome_iff fun r _ => get_isSome h.len _

/-- both fail, or both succeed alike -/
def AlikeO (P Q : Option (Rec W)) : Prop := (P = none ∧ Q = none) ∨ ∃ P' Q', P = some P' ∧ Q = some Q' ∧ Alike P' Q'

theorem unfoldM_alike {ops : Ops} {f k id i j : Nat} {inf : W} {P P' D D' : Rec W} (hP : Alike P P') (hD : Alike D D') :
    AlikeO (unfoldM f ops inf k id P D i j) (unfoldM f ops inf k id P' D' i j) := by
  have hv : ∀ n, Measure.violates f n P D = Measure.violates f n P' D' := fun n => by unfold Measure.violates; rw [hP.prog, hP.lin, hD.lin]
  unfold unfoldM
  rw [hP.prog, hD.prog, hP.lin]
  split
  · rename_i rules st e
    simp only [hv]
    cases Measure.violates f st.k P' D' with
    | none => exact .inl ⟨rfl, rfl⟩
    | some b =>
      cases b with
      | true => exact .inr ⟨_, _, rfl, rfl, rfl, rfl, rfl⟩
      | false =>
        simp only
        have h1 := get_isSome hP.len i
        have h2 := allSome_iff (f := fun t : WRule W × Option Nat => t.2.bind fun n => D.m[n]?) (g := fun t => t.2.bind fun n => D'.m[n]?) (l := st.out) (fun t _ => by
          cases t.2 with
          | none => rfl
          | some n => exact get_isSome hD.len n)
        cases P'.prog.rules[i]? with
        | none => exact .inl ⟨rfl, rfl⟩
        | some r =>
          cases hm : P.m[i]? with
          | none =>
            have : P'.m[i]? = none := by rw [hm] at h1; simpa using h1.symm
            rw [this]; exact .inl ⟨rfl, rfl⟩
          | some mi =>
            obtain ⟨mi', hm'⟩ : ∃ v, P'.m[i]? = some v := by rw [hm] at h1; exact Option.isSome_iff_exists.1 (by simpa using h1.symm)
            rw [hm']
            rcases h2 with ⟨h2, h3⟩ | ⟨u, v, h2, h3, h4⟩
            · rw [h2, h3]; exact .inl ⟨rfl, rfl⟩
            · rw [h2, h3]
              simp only
              rcases copied_alike hP (P'.prog.rules.erase r) with ⟨h5, h6⟩ | ⟨u', v', h5, h6, h7⟩
              · rw [h5, h6]; exact .inl ⟨rfl, rfl⟩
              · rw [h5, h6]; exact .inr ⟨_, _, rfl, rfl, rfl, rfl, by simp [h4, h7]⟩
  · exact .inl ⟨rfl, rfl⟩

theorem minOf_alike {α β : Type} {l : List α} {m : List β} (h : l.length = m.length) (f : α → Int) (g : β → Int) :
    (Measure.minOf (l.map f)).isSome = (Measure.minOf (m.map g)).isSome := by
  cases l <;> cases m <;> simp_all [Measure.minOf]

theorem maxOf_alike {α β : Type} {l : List α} {m : List β} (h : l.length = m.length) (f : α → Int) (g : β → Int) :
    (Measure.maxOf (l.map f)).isSome = (Measure.maxOf (m.map g)).isSome := by
  cases l <;> cases m <;> simp_all [Measure.maxOf]

theorem foldM_alike {e : Env W S'} {f k id j : Nat} {r : WRule W} {S : Finset Nat} {P P' D D' : Rec W} (hP : Alike P P') (hD : Alike D D') :
    AlikeO (foldM f e.o e.ord e.ops e.inf e.code e.pick k id P D r S j) (foldM f e.o e.ord e.ops e.inf e.code e.pick k id P' D' r S j) := by
  have hv : ∀ n, Measure.violates f n P D = Measure.violates f n P' D' := fun n => by unfold Measure.violates; rw [hP.prog, hP.lin, hD.lin]
  unfold foldM
  rw [hP.prog, hD.prog, hP.lin]
  simp only
  split
  · rename_i u st eu
    split
    · exact .inl ⟨rfl, rfl⟩
    simp only [hv]
    cases Measure.violates f st.k P' D' with
    | none => exact .inl ⟨rfl, rfl⟩
    | some b =>
      cases b with
      | true => exact .inr ⟨_, _, rfl, rfl, rfl, rfl, rfl⟩
      | false =>
        simp only
        split
        · exact .inl ⟨rfl, rfl⟩
        · rename_i pairs _
          have h1 := allSome_iff (f := Measure.foldEntry f e.ord e.ops e.code e.pick P D) (g := Measure.foldEntry f e.ord e.ops e.code e.pick P' D') (l := pairs) (fun t _ => by
            have h2 := get_isSome hP.len t.1
            have h3 := get_isSome hD.len t.2
            unfold Measure.foldEntry
            rw [hP.prog, hD.prog]
            cases ha : P.m[t.1]? <;> cases ha' : P'.m[t.1]? <;> cases hb : D.m[t.2]? <;> cases hb' : D'.m[t.2]? <;> rw [ha, ha'] at h2 <;> rw [hb, hb'] at h3 <;>
              first | (simp at h2; done) | (simp at h3; done) | rfl | skip
            cases P'.prog.rules[t.1]? with
            | none => rfl
            | some rp =>
              cases D'.prog.rules[t.2]? with
              | none => rfl
              | some rd =>
                simp only
                cases Measure.ruleFolds f e.ord e.code rp rd with
                | none => rfl
                | some l =>
                  simp only
                  cases e.pick l <;> rfl)
          rcases h1 with ⟨h1, h2⟩ | ⟨us, vs, h1, h2, h3⟩
          · rw [h1, h2]; exact .inl ⟨rfl, rfl⟩
          · rw [h1, h2]
            simp only
            have h4 := minOf_alike h3 (·.1.lo) (·.1.lo)
            have h5 := maxOf_alike h3 (·.1.hi) (·.1.hi)
            cases ha : Measure.minOf (us.map (·.1.lo)) <;> cases ha' : Measure.minOf (vs.map (·.1.lo)) <;>
              cases hb : Measure.maxOf (us.map (·.1.hi)) <;> cases hb' : Measure.maxOf (vs.map (·.1.hi)) <;> rw [ha, ha'] at h4 <;> rw [hb, hb'] at h5 <;>
              first | (simp at h4; done) | (simp at h5; done) | exact .inl ⟨rfl, rfl⟩ | skip
            rcases copied_alike hP (minus P'.prog.rules S) with ⟨h6, h7⟩ | ⟨u', v', h6, h7, h8⟩
            · rw [h6, h7]; exact .inl ⟨rfl, rfl⟩
            · rw [h6, h7]; exact .inr ⟨_, _, rfl, rfl, rfl, rfl, by simp [h8]⟩
  · exact .inl ⟨rfl, rfl⟩

theorem defineM_alike {sym : Bool} {a a' : Nat → Int} {b id : Nat} {P P' : Rec W} {news : List (WRule W)} (h : Alike P P') :
    AlikeO (defineM sym a b id P news) (defineM sym a' b id P' news) := by
  unfold defineM
  rw [h.prog, h.lin]
  split
  · exact .inl ⟨rfl, rfl⟩
  · exact .inr ⟨_, _, rfl, rfl, rfl, rfl, by simp [Measure.newVars, h.len]⟩

/-- stages that are alike -/
structure AlikeS (s t : Stage W) : Prop where
  R : Alike s.R t.R
  defIx : s.defIx = t.defIx
  base : s.base = t.base
  c : s.c = t.c

def AlikeL (L M : Option (List (Stage W))) : Prop := (L = none ∧ M = none) ∨ ∃ L' M', L = some L' ∧ M = some M' ∧ List.Forall₂ AlikeS L' M'

theorem firstAppears_alike {f : Nat} {x : Tm} {P Q : Stage W} (h : AlikeS P Q) {l m : List (Stage W)} (hl : List.Forall₂ AlikeS l m) :
    (firstAppears f x P l = none ∧ firstAppears f x Q m = none) ∨ ∃ D D', firstAppears f x P l = some D ∧ firstAppears f x Q m = some D' ∧ AlikeS D D' := by
  induction hl with
  | nil => exact .inr ⟨_, _, rfl, rfl, h⟩
  | @cons s t l m hs _ ih =>
    simp only [firstAppears, hs.R.prog]
    split
    · exact .inl ⟨rfl, rfl⟩
    · exact .inr ⟨_, _, rfl, rfl, hs⟩
    · exact ih

theorem step_alike {e : Env W S'} {a a' : Nat → Int} {L M : List (Stage W)} (h : List.Forall₂ AlikeS L M) (m : Move W) : AlikeL (step e a L m) (step e a' M m) := by
  have hlen := h.length_eq
  cases h with
  | nil => exact .inl ⟨rfl, rfl⟩
  | @cons P Q L M hP hLM =>
    have hall : List.Forall₂ AlikeS (P :: L) (Q :: M) := .cons hP hLM
    cases m with
    | unfold f k i j =>
      simp only [step, hP.R.prog, hlen]
      split
      · exact .inl ⟨rfl, rfl⟩
      · split
        · rename_i q _
          rcases firstAppears_alike (f := f) (x := q) hP (List.rel_reverse hall) with ⟨h1, h2⟩ | ⟨D, D', h1, h2, h3⟩
          · rw [h1, h2]; exact .inl ⟨rfl, rfl⟩
          · rw [h1, h2]
            simp only
            rcases unfoldM_alike (ops := e.ops) (f := f) (k := k) (id := (Q :: M).length) (i := i) (j := j) (inf := e.inf) hP.R h3.R with ⟨h4, h5⟩ | ⟨R, R', h4, h5, h6⟩
            · rw [h4, h5]; exact .inl ⟨rfl, rfl⟩
            · rw [h4, h5]; exact .inr ⟨_, _, rfl, rfl, .cons ⟨h6, rfl, hP.base, hP.c⟩ hall⟩
        · exact .inl ⟨rfl, rfl⟩
    | unfoldBy f k d i j =>
      simp only [step, hP.R.prog, hlen]
      split
      · exact .inl ⟨rfl, rfl⟩
      · split
        · rename_i q _
          have hd : ((P :: L)[d]? = none ∧ (Q :: M)[d]? = none) ∨ ∃ D D', (P :: L)[d]? = some D ∧ (Q :: M)[d]? = some D' ∧ AlikeS D D' := by
            by_cases hd : d < (P :: L).length
            · exact .inr ⟨_, _, List.getElem?_eq_getElem hd, List.getElem?_eq_getElem (hlen ▸ hd), List.Forall₂.get hall hd (hlen ▸ hd)⟩
            · exact .inl ⟨List.getElem?_eq_none_iff.2 (by omega), List.getElem?_eq_none_iff.2 (by omega)⟩
          rcases hd with ⟨h1, h2⟩ | ⟨D, D', h1, h2, h3⟩
          · rw [h1, h2]; exact .inl ⟨rfl, rfl⟩
          · rw [h1, h2]
            simp only [h3.R.prog]
            split
            · exact .inl ⟨rfl, rfl⟩
            · rcases unfoldM_alike (ops := e.ops) (f := f) (k := k) (id := (Q :: M).length) (i := i) (j := j) (inf := e.inf) hP.R h3.R with ⟨h4, h5⟩ | ⟨R, R', h4, h5, h6⟩
              · rw [h4, h5]; exact .inl ⟨rfl, rfl⟩
              · rw [h4, h5]; exact .inr ⟨_, _, rfl, rfl, .cons ⟨h6, rfl, hP.base, hP.c⟩ hall⟩
        · exact .inl ⟨rfl, rfl⟩
    | hook f k i js c =>
      simp only [step, hP.R.prog, hlen, hP.c, hP.base]
      split
      · exact .inl ⟨rfl, rfl⟩
      · rename_i r _
        split
        · exact .inl ⟨rfl, rfl⟩
        · rcases defineM_alike (sym := e.sym) (a := a) (a' := a') (b := Q.base.length) (id := (Q :: M).length) (news := [absorb e.vord r js (genName c)]) hP.R with ⟨h1, h2⟩ | ⟨D, D', h1, h2, h3⟩
          · rw [h1, h2]; exact .inl ⟨rfl, rfl⟩
          · rw [h1, h2]
            simp only [h3.prog]
            split
            · exact .inl ⟨rfl, rfl⟩
            · rcases foldM_alike (e := e) (f := f) (k := k) (id := (Q :: M).length + 1) (j := 0) (r := revRule r (absorb e.vord r js (genName c)) js) (S := {i}) h3 h3 with ⟨h4, h5⟩ | ⟨R, R', h4, h5, h6⟩
              · rw [h4, h5]; exact .inl ⟨rfl, rfl⟩
              · rw [h4, h5]; exact .inr ⟨_, _, rfl, rfl, .cons ⟨h6, rfl, rfl, rfl⟩ (.cons ⟨h3, rfl, rfl, rfl⟩ hall)⟩
    | fold f k d r S j =>
      simp only [step, hlen]
      have hd : ((P :: L)[d]? = none ∧ (Q :: M)[d]? = none) ∨ ∃ D D', (P :: L)[d]? = some D ∧ (Q :: M)[d]? = some D' ∧ AlikeS D D' := by
        by_cases hd : d < (P :: L).length
        · exact .inr ⟨_, _, List.getElem?_eq_getElem hd, List.getElem?_eq_getElem (hlen ▸ hd), List.Forall₂.get hall hd (hlen ▸ hd)⟩
        · exact .inl ⟨List.getElem?_eq_none_iff.2 (by omega), List.getElem?_eq_none_iff.2 (by omega)⟩
      rcases hd with ⟨h1, h2⟩ | ⟨D, D', h1, h2, h3⟩
      · rw [h1, h2]; exact .inl ⟨rfl, rfl⟩
      · rw [h1, h2]
        simp only [h3.defIx]
        split
        · exact .inl ⟨rfl, rfl⟩
        · rcases foldM_alike (e := e) (f := f) (k := k) (id := (Q :: M).length) (j := j) (r := r) (S := S) hP.R h3.R with ⟨h4, h5⟩ | ⟨R, R', h4, h5, h6⟩
          · rw [h4, h5]; exact .inl ⟨rfl, rfl⟩
          · rw [h4, h5]; exact .inr ⟨_, _, rfl, rfl, .cons ⟨h6, rfl, hP.base, hP.c⟩ hall⟩

theorem run_alike (e : Env W S') (a a' : Nat → Int) (root : Prog W) (c : Nat) : ∀ ms, AlikeL (run e a root c ms) (run e a' root c ms)
  | [] => .inr ⟨_, _, rfl, rfl, .cons ⟨⟨rfl, rfl, by simp [first, addRef, Measure.newVars]⟩, rfl, rfl, rfl⟩ .nil⟩
  | m :: ms => by
    simp only [run]
    rcases run_alike e a a' root c ms with ⟨h1, h2⟩ | ⟨L, M, h1, h2, h3⟩
    · rw [h1, h2]; exact .inl ⟨rfl, rfl⟩
    · rw [h1, h2]; exact step_alike h3 m

/-- **C85 (programs).**  Which programs are made does not depend on the values of the unknowns. -/
theorem C85_rules (e : Env W S') (a : Nat → Int) (root : Prog W) (c : Nat) (ms : List (Move W)) {P : Stage W} {L : List (Stage W)} (h : run e a root c ms = some (P :: L)) :
    rulesOf e root c ms = P.R.prog.rules := by
  rcases run_alike e a (fun _ => 0) root c ms with ⟨h1, _⟩ | ⟨L', M, h1, h2, h3⟩
  · rw [h] at h1; cases h1
  · rw [h] at h1
    cases h1
    unfold rulesOf
    rw [h2]
    cases h3 with
    | cons hP _ => exact congrArg Prog.rules hP.R.prog.symm

/-! ### The search -/

/-- the search as an instance of `AgendaBasedSearch`; `cost` and `prio` are computed from the program -/
noncomputable def cfg {K D : Type} (e : Env W S') (root : Prog W) (c : Nat) (g : Cands W) (prio cost : List (Move W) → D) (key : List (Move W) → K) :
    Search.Cfg (State W) (List (Move W)) K D :=
  ⟨State.ms, fun s => prio s.ms, cost, key, check e root c, drive e root c g⟩

/-- **C85 (search).**  Whatever the costs and however the choices of the search fall, every program that it yields, and the one that it returns as the
best, has the values of the original program, if programs with the same key are equal and the moves it makes are fit. -/
theorem C85_search {K D : Type} [DecidableEq K] [LinearOrder D] {e : Env W S'} {root : Prog W} {c0 : Nat} (hS : Setup e root c0) (g : Cands W)
    (prio cost : List (Move W) → D) (key : List (Move W) → K)
    (hkey : ∀ p q, key p = key q → e.o.progEq false (rulesOf e root c0 p) (rulesOf e root c0 q) = true)
    (hfit : ∀ y, Search.Gen (cfg e root c0 g prio cost key) ⟨[], [], []⟩ y → ∀ a, AllFit e a root c0 y.ms)
    {cs : List Search.Choice} {s : Search.St (State W) (List (Move W)) K D} (h : Search.After (cfg e root c0 g prio cost key) ⟨[], [], []⟩ cs s) :
    Agrees e.ops root c0 (rulesOf e root c0 s.best) ∧ ∀ p ∈ s.yields, Agrees e.ops root c0 (rulesOf e root c0 p) := by
  refine (Search.C72_sound _ _ h).2 (fun p => Agrees e.ops root c0 (rulesOf e root c0 p)) (fun p q hk hp d hd x hx w => ?_) (fun d _ x _ w => Iff.rfl) fun y hy hc => ?_
  · rw [← hp d hd x hx w]
    exact forall_congr' fun k => by rw [Fold.rounds_congr fun v x => (Fold.progEq_T hS.same (hkey p q hk) v x).symm]
  · obtain ⟨ms, _, _⟩ := y
    cases ms with
    | nil => exact fun d _ x _ w => Iff.rfl
    | cons m ms =>
      have hc : check e root c0 (m :: ms) = true := hc
      simp only [check, decide_eq_true_eq] at hc
      obtain ⟨a, P, L, h1, ok⟩ := hc
      show Agrees e.ops root c0 (rulesOf e root c0 (m :: ms))
      rw [C85_rules e a root c0 (m :: ms) h1]
      exact C85_sound hS (hfit _ hy a) h1 ok

end

/-! ### No move is missed -/

/-- passing over the first rule that is not in the set, several times -/
inductive Skips (g : Cands W) (rs : List (WRule W)) : List (WRule W) → List (WRule W) → Prop
  | refl (d : List (WRule W)) : Skips g rs d d
  | skip {d d' r i} (h : todo g d rs = some (r, i)) (h' : Skips g rs (r :: d) d') : Skips g rs d d'

theorem todo_some {g : Cands W} {d rs : List (WRule W)} {r : WRule W} {i : Nat} (h : todo g d rs = some (r, i)) : rs[i]? = some r ∧ mem g r d = false :=
  ⟨List.mk_mem_zipIdx_iff_getElem?.1 (List.mem_of_find?_eq_some h), by simpa using List.find?_some h⟩

theorem todo_none {g : Cands W} {d rs : List (WRule W)} (h : todo g d rs = none) : (rs.all fun r => mem g r d) = true := by
  rw [List.all_eq_true]
  intro r hr
  obtain ⟨i, hi⟩ := List.getElem?_of_mem hr
  have := List.find?_eq_none.1 h (r, i) (List.mk_mem_zipIdx_iff_getElem?.2 hi)
  simpa using this

/-- how many rules are left -/
def left (g : Cands W) (rs d : List (WRule W)) : Nat := (rs.filter fun r => !mem g r d).length

theorem left_lt {g : Cands W} (hr : ∀ r, g.req r r = true) {d rs : List (WRule W)} {r : WRule W} {i : Nat} (h : todo g d rs = some (r, i)) : left g rs (r :: d) < left g rs d := by
  obtain ⟨h1, h2⟩ := todo_some h
  have hm := List.mem_of_getElem? h1
  unfold left
  have e1 : (rs.filter fun x => !mem g x (r :: d)) = (rs.filter fun x => !mem g x d).filter fun x => !g.req x r := by
    rw [List.filter_filter]
    refine List.filter_congr fun x _ => ?_
    simp [mem, Bool.not_or]
  rw [e1]
  refine List.length_filter_lt_length_iff_exists.2 ⟨r, List.mem_filter.2 ⟨hm, by simp [h2]⟩, by simp [hr r]⟩

theorem skips_all {g : Cands W} (hr : ∀ r, g.req r r = true) (rs d : List (WRule W)) : ∃ d', Skips g rs d d' ∧ (rs.all fun r => mem g r d') = true := by
  cases h : todo g d rs with
  | none => exact ⟨d, .refl d, todo_none h⟩
  | some ri =>
    obtain ⟨r, i⟩ := ri
    obtain ⟨d', h1, h2⟩ := skips_all hr rs (r :: d)
    exact ⟨d', .skip h h1, h2⟩
termination_by left g rs d
decreasing_by exact left_lt hr h

/-- no two rules of the program are the same -/
def Distinct (g : Cands W) (rs : List (WRule W)) : Prop := ∀ (i j : Nat) (r s : WRule W), rs[i]? = some r → rs[j]? = some s → i ≠ j → g.req r s = false

theorem skips_to {g : Cands W} (hr : ∀ r, g.req r r = true) {rs : List (WRule W)} (hd : Distinct g rs) {i : Nat} {r : WRule W} (hi : rs[i]? = some r) (d : List (WRule W)) (hm : mem g r d = false) :
    ∃ d', Skips g rs d d' ∧ todo g d' rs = some (r, i) := by
  cases h : todo g d rs with
  | none =>
    have := List.all_eq_true.1 (todo_none h) r (List.mem_of_getElem? hi)
    rw [hm] at this; cases this
  | some ri =>
    obtain ⟨r', i'⟩ := ri
    obtain ⟨h1, h2⟩ := todo_some h
    by_cases hii : i = i'
    · subst hii
      rw [hi] at h1
      cases h1
      exact ⟨d, .refl d, h⟩
    · obtain ⟨d', h3, h4⟩ := skips_to hr hd hi (r' :: d) (by
        have := hd i i' r r' hi h1 hii
        simp only [mem] at hm
        simp [mem, this, hm])
      exact ⟨d', .skip h h3, h4⟩
termination_by left g rs d
decreasing_by exact left_lt hr h

section
variable [OSemi W] [DecidableEq W] {S' : Type} [DecidableEq S']
variable {K D : Type} [DecidableEq K] [LinearOrder D] {e : Env W S'} {root : Prog W} {c0 : Nat} {g : Cands W} {prio cost : List (Move W) → D} {key : List (Move W) → K}

theorem gen_eureka {y : State W} (hc : check e root c0 y.ms = true) {P : Stage W} {L : List (Stage W)} (hrun : run e (fun _ => 0) root c0 y.ms = some (P :: L))
    {d d' : List (WRule W)} (h : Skips g P.R.prog.rules d d') (hg : Search.Gen (cfg e root c0 g prio cost key) ⟨[], [], []⟩ ⟨y.ms, d, y.unfold⟩) :
    Search.Gen (cfg e root c0 g prio cost key) ⟨[], [], []⟩ ⟨y.ms, d', y.unfold⟩ := by
  induction h with
  | refl => exact hg
  | @skip d d' r i h _ ih =>
    refine ih (.move hg hg rfl hc ?_)
    show _ ∈ drive e root c0 g ⟨y.ms, d, y.unfold⟩
    simp only [drive, hrun, driveEureka, h]
    simp

theorem gen_unfold {y : State W} (hc : check e root c0 y.ms = true) {P : Stage W} {L : List (Stage W)} (hrun : run e (fun _ => 0) root c0 y.ms = some (P :: L))
    {d d' : List (WRule W)} (hE : (P.R.prog.rules.all fun r => mem g r y.eureka) = true) (h : Skips g P.R.prog.rules d d') (hg : Search.Gen (cfg e root c0 g prio cost key) ⟨[], [], []⟩ ⟨y.ms, y.eureka, d⟩) :
    Search.Gen (cfg e root c0 g prio cost key) ⟨[], [], []⟩ ⟨y.ms, y.eureka, d'⟩ := by
  induction h with
  | refl => exact hg
  | @skip d d' r i h _ ih =>
    refine ih (.move hg hg rfl hc ?_)
    show _ ∈ drive e root c0 g ⟨y.ms, y.eureka, d⟩
    simp only [drive, hrun, hE, driveUnfold, h]
    simp

/-- **C85 (no move is missed).**  If the search generates a program that passes the check and has no two equal rules, it also generates every program that results from it
by a hook of a rule that was not passed over, by an unfolding in a rule that was not passed over, and by a proposed fold by the definitions of its lineage. -/
theorem C85_moves (hr : ∀ r, g.req r r = true) {y : State W} (hy : Search.Gen (cfg e root c0 g prio cost key) ⟨[], [], []⟩ y) (hc : check e root c0 y.ms = true)
    {P : Stage W} {L : List (Stage W)} (hrun : run e (fun _ => 0) root c0 y.ms = some (P :: L)) (hd : Distinct g P.R.prog.rules) :
    (∀ i r js, P.R.prog.rules[i]? = some r → mem g r y.eureka = false → js ∈ g.elims r →
      ∃ z, Search.Gen (cfg e root c0 g prio cost key) ⟨[], [], []⟩ z ∧ z.ms = .hook (g.fuel y.ms) (g.mark y.ms) i js (g.next y.ms) :: y.ms) ∧
    (∀ i r j x, P.R.prog.rules[i]? = some r → mem g r y.unfold = false → r.body[j]? = some (.sub x) → g.inline P.R.prog x = true →
      ∃ z, Search.Gen (cfg e root c0 g prio cost key) ⟨[], [], []⟩ z ∧ z.ms = .unfold (g.fuel y.ms) (g.mark y.ms) i j :: y.ms) ∧
    ∀ (d : Nat) (Dd : Stage W) (ix : List Nat) (rj : WRule W × Nat) (S : Finset Nat), (P :: L)[d]? = some Dd → Dd.defIx = some ix →
      rj ∈ g.props P.R.prog (ix.filterMap fun i => Dd.R.prog.rules[i]?) → g.parts P.R.prog Dd.R.prog rj = some S →
      ∃ z, Search.Gen (cfg e root c0 g prio cost key) ⟨[], [], []⟩ z ∧ z.ms = .fold (g.fuel y.ms) (g.mark y.ms) d rj.1 S rj.2 :: y.ms := by
  refine ⟨fun i r js hi hm hjs => ?_, fun i r j x hi hm hj hx => ?_, fun d Dd ix rj S h1 h2 h3 h4 => ?_⟩
  · obtain ⟨d', h1, h2⟩ := skips_to hr hd hi y.eureka hm
    have hg := gen_eureka hc hrun h1 hy
    refine ⟨⟨_, r :: d', y.unfold⟩, .move hg hg rfl hc ?_, rfl⟩
    show _ ∈ drive e root c0 g ⟨y.ms, d', y.unfold⟩
    simp only [drive, hrun, driveEureka, h2]
    simp only [List.mem_append, List.mem_cons, List.mem_map]
    exact .inl (.inr (.inr ⟨js, hjs, rfl⟩))
  · obtain ⟨E, h1, h2⟩ := skips_all hr P.R.prog.rules y.eureka
    have hg := gen_eureka hc hrun h1 hy
    obtain ⟨d', h3, h4⟩ := skips_to hr hd hi y.unfold hm
    have hg' := gen_unfold (y := ⟨y.ms, E, y.unfold⟩) hc hrun h2 h3 hg
    refine ⟨⟨_, E, r :: d'⟩, .move hg' hg' rfl hc ?_, rfl⟩
    show _ ∈ drive e root c0 g ⟨y.ms, E, d'⟩
    simp only [drive, hrun, h2, if_true, driveUnfold, h4]
    refine List.mem_append_right _ (List.mem_cons_of_mem _ (List.mem_flatMap.2 ⟨(.sub x, j), List.mk_mem_zipIdx_iff_getElem?.2 hj, ?_⟩))
    simp [hx]
  · obtain ⟨E, h5, h6⟩ := skips_all hr P.R.prog.rules y.eureka
    have hg := gen_eureka hc hrun h5 hy
    obtain ⟨U, h7, h8⟩ := skips_all hr P.R.prog.rules y.unfold
    have hg' := gen_unfold (y := ⟨y.ms, E, y.unfold⟩) hc hrun h6 h7 hg
    refine ⟨⟨_, E, U⟩, .move hg' hg' rfl hc ?_, rfl⟩
    show _ ∈ drive e root c0 g ⟨y.ms, E, U⟩
    simp only [drive, hrun, h8, if_true]
    refine List.mem_append_left _ (List.mem_append_left _ (List.mem_flatMap.2 ⟨(Dd, d), List.mk_mem_zipIdx_iff_getElem?.2 h1, ?_⟩))
    simp only [h2]
    refine List.mem_flatMap.2 ⟨rj, h3, ?_⟩
    simp [h4]

/-- **C85 (moves only).**  Every program that the search generates is the original one or made by one move from a generated program. -/
theorem C85_generated {y : State W} (hy : Search.Gen (cfg e root c0 g prio cost key) ⟨[], [], []⟩ y) :
    y.ms = [] ∨ ∃ m z, y.ms = m :: z.ms ∧ Search.Gen (cfg e root c0 g prio cost key) ⟨[], [], []⟩ z := by
  induction hy with
  | root => exact .inl rfl
  | @move y y' z hy _ _ _ hz ih _ =>
    have hz : z ∈ drive e root c0 g y := hz
    have stay : z.ms = y.ms ∨ ∃ m, z.ms = m :: y.ms := by
      unfold drive at hz
      split at hz
      · rcases List.mem_append.1 hz with hz | hz
        · rcases List.mem_append.1 hz with hz | hz
          · split at hz
            · obtain ⟨Dd, _, hz⟩ := List.mem_flatMap.1 hz
              split at hz
              · cases hz
              · obtain ⟨rj, _, hz⟩ := List.mem_flatMap.1 hz
                split at hz
                · cases hz
                · rw [List.mem_singleton.1 hz]; exact .inr ⟨_, rfl⟩
            · cases hz
          · unfold driveEureka at hz
            split at hz
            · cases hz
            · rcases List.mem_cons.1 hz with hz | hz
              · rw [hz]; exact .inl rfl
              · obtain ⟨js, _, rfl⟩ := List.mem_map.1 hz; exact .inr ⟨_, rfl⟩
        · split at hz
          · unfold driveUnfold at hz
            split at hz
            · cases hz
            · rcases List.mem_cons.1 hz with hz | hz
              · rw [hz]; exact .inl rfl
              · obtain ⟨xj, _, hz⟩ := List.mem_flatMap.1 hz
                split at hz
                · cases hz
                · split at hz
                  · rw [List.mem_singleton.1 hz]; exact .inr ⟨_, rfl⟩
                  · cases hz
          · cases hz
      · cases hz
    rcases stay with h | ⟨m, h⟩
    · rw [h]; exact ih
    · exact .inr ⟨m, y, h, hy⟩

end

/-! ### Examples -/
section Examples
open Measure (pr)
open Unfold (at' ltOps)
open Fold (eqOps eqOps_faithful)

def demoP : Prog TV := ⟨[("goal", ["b", "c", "d"]), ("z", ["b", "c", "d"]), ("y", ["z"])].map pr, ["b", "c", "d"].map fun s => at' s []⟩
def demoE : Env TV Unit := ⟨eqOps, id, ltOps, Measure.code, List.head?, fun s => s.sort (· ≤ ·), true, .t⟩
/-- name the first two subgoals of `goal`, fold the rule of `z` by that definition, unfold `z` in the rule of `y` -/
def demoMs : List (Move TV) := [.unfold 40 0 2 0, .fold 40 0 1 (pr ("z", ["$gen1", "d"])) {1} 0, .hook 40 0 0 [0, 1] 1]
def demoOut : List (WRule TV) := [("z", ["$gen1", "d"]), ("goal", ["$gen1", "d"]), ("$gen1", ["b", "c"]), ("y", ["b", "c", "d"])].map pr

theorem demo_run : ((run demoE (fun _ => 1) demoP 0 demoMs).bind List.head?).map (fun P => (P.R.prog.rules, P.R.ok)) = some (demoOut, true) := by
  decide +kernel

theorem demo_at (ms : List (Move TV)) {rs : List (WRule TV)} {is : List Tm} {a : Nat → Int}
    (h : ((run demoE (fun _ => 1) demoP 0 ms).bind List.head?).map (fun P => (P.R.prog.rules, P.R.prog.inputs)) = some (rs, is))
    {L : List (Stage TV)} (hL : run demoE a demoP 0 ms = some L) {P : Stage TV} {L' : List (Stage TV)} (hP : L = P :: L') :
    P.R.prog.rules = rs ∧ P.R.prog.inputs = is := by
  rcases run_alike demoE a (fun _ => 1) demoP 0 ms with ⟨h1, _⟩ | ⟨L1, M, h1, h2, h3⟩
  · rw [hL] at h1; cases h1
  · rw [hL] at h1
    cases h1
    subst hP
    rw [h2] at h
    cases h3 with
    | cons hQ _ =>
      rw [hQ.R.prog]
      simpa using h

theorem pr_wf {r : String × List String} (h : isBuiltin ltOps (at' r.1 []) = false ∧ r.1 ≠ "<" ∧ r.1 ≠ "=") : WF ltOps (pr r) :=
  ⟨⟨.str r.1, [], rfl, by simp [ltOps, h.2.1], by simpa using h.2.2⟩, h.1, fun t ht => by
    obtain ⟨b, _, e⟩ := List.mem_map.1 ht
    cases e
    exact ⟨_, _, rfl⟩⟩

theorem pr_goal {r : WRule TV} {s : String} (hs : s ∉ ["b", "c", "d"]) (h : isBuiltin ltOps (at' s []) = false ∧ s ≠ "<" ∧ s ≠ "=" ∧ Unfold.unmodelled (.str s) = false)
    (hr : ∃ t, r = pr t) : Goal ltOps demoP.inputs 0 r (at' s []) := by
  obtain ⟨t, rfl⟩ := hr
  refine ⟨fun n hn => ?_, ⟨_, _, rfl, h.2.2.2, fun hc => ?_⟩, ⟨.str s, [], rfl, by simp [ltOps, h.2.1], by simpa using h.2.2.1⟩, h.1, fun u hu θ φ e => ?_⟩
  · simp only [rvars, pr, Finset.mem_union, mem_bodyVars] at hn
    rcases hn with hn | ⟨l, hl, hn⟩
    · simp at hn
    · obtain ⟨b, _, rfl⟩ := List.mem_map.1 hl
      simp [litVars] at hn
  · rcases hc with hc | hc
    · simp [ltOps, h.2.1] at hc
    · simp [h.2.2.1] at hc
  · obtain ⟨b, hb, rfl⟩ := List.mem_map.1 hu
    rw [Measure.gsub_at, Measure.gsub_at, Measure.atom_inj] at e
    exact hs (e ▸ hb)

theorem demo_setup : Setup demoE demoP 0 where
  same := eqOps_faithful
  order := fun l => .refl _
  picks := fun l t h => List.mem_of_mem_head? h
  inf := Measure.infty_tv.symm
  vars := fun s => by simp [demoE]
  gen := fun g _ => ⟨by
      have : genName g ≠ .str "<" := Hook.genName_ne (by decide)
      simp [demoE, ltOps, this], Hook.genName_ne (by decide), Hook.genName_modelled g, fun t ht => by
      obtain ⟨s, hs, rfl⟩ := List.mem_map.1 ht
      refine avoids_of_ne ⟨_, _, rfl⟩ fun h => ?_
      have h : genName g = .str s := (Option.some.inj h).symm
      simp only [List.mem_cons, List.not_mem_nil, or_false] at hs
      rcases hs with rfl | rfl | rfl <;> exact Hook.genName_ne (by decide) h⟩
  rules := fun r hr => by
    obtain ⟨t, ht, rfl⟩ := List.mem_map.1 hr
    refine pr_wf ?_
    simp only [List.mem_cons, List.not_mem_nil, or_false] at ht
    rcases ht with rfl | rfl | rfl <;> decide
  fresh := fun n hn g _ h => by
    have : syms demoP = [.str "goal", .str "b", .str "c", .str "d", .str "z", .str "b", .str "c", .str "d", .str "y", .str "z"] := by decide
    rw [this] at hn
    subst h
    simp only [List.mem_cons, List.not_mem_nil, or_false] at hn
    rcases hn with h | h | h | h | h | h | h | h | h | h <;> exact Hook.genName_ne (by decide) h

theorem demo_fit : AllFit demoE (fun _ => 1) demoP 0 demoMs := by
  refine ⟨⟨⟨trivial, fun L hL P L' r hP hr => ?_⟩, fun L hL P L' hP => ?_⟩, fun L hL P L' r q hP hr hq => ?_⟩
  · obtain ⟨h1, -⟩ := demo_at [] (rs := demoP.rules) (is := demoP.inputs) (by decide +kernel) hL hP
    rw [h1] at hr ⊢
    cases hr
    exact ⟨(pr_goal (r := pr ("goal", ["b", "c", "d"])) (s := "z") (by decide) (by decide) ⟨_, rfl⟩).below, by decide, by decide⟩
  · obtain ⟨h1, h2⟩ := demo_at _ (rs := [("goal", ["$gen1", "d"]), ("z", ["b", "c", "d"]), ("y", ["z"]), ("$gen1", ["b", "c"])].map pr) (is := demoP.inputs) (by decide +kernel) hL hP
    refine ⟨pr_wf (by decide), ⟨_, rfl, ?_⟩, by rw [h1]; decide⟩
    rw [h2]
    exact pr_goal (by decide) (by decide) ⟨_, rfl⟩
  · obtain ⟨h1, h2⟩ := demo_at _ (rs := [("z", ["$gen1", "d"]), ("goal", ["$gen1", "d"]), ("y", ["z"]), ("$gen1", ["b", "c"])].map pr) (is := demoP.inputs) (by decide +kernel) hL hP
    rw [h1] at hr
    cases hr
    cases hq
    refine ⟨?_, by rw [h1]; decide⟩
    rw [h2]
    exact pr_goal (by decide) (by decide) ⟨_, rfl⟩

/-- the three moves keep the values -/
example : Agrees ltOps demoP 0 demoOut := by
  have h := demo_run
  cases hr : run demoE (fun _ => 1) demoP 0 demoMs with
  | none => rw [hr] at h; cases h
  | some L =>
    cases L with
    | nil => rw [hr] at h; cases h
    | cons P L =>
      rw [hr] at h
      simp only [Option.bind_some, List.head?_cons, Option.map_some, Option.some.injEq, Prod.mk.injEq] at h
      rw [← h.1]
      exact C85_sound demo_setup demo_fit hr h.2

/-- and they do not depend on the values of the unknowns -/
example : rulesOf demoE demoP 0 demoMs = demoOut := by
  decide +kernel

/-- a search that unfolds `z` -/
def demoG : Cands TV := ⟨fun r s => decide (r = s), fun _ => [], fun _ _ => [], fun _ _ _ => none, fun p x => decide (p.rules = demoP.rules ∧ x = at' "z" []), fun _ => 40, fun _ => 0, fun _ => 1⟩

/-- the key of a program is its rules -/
noncomputable def demoC : Search.Cfg (State TV) (List (Move TV)) (List (WRule TV)) Nat :=
  cfg demoE demoP 0 demoG (fun _ => 0) (fun ms => ((rulesOf demoE demoP 0 ms).map fun r => r.body.length).sum) (rulesOf demoE demoP 0)

def demoM : Move TV := .unfold 40 0 2 0

/-- the programs of this search -/
theorem demo_gen {y : State TV} (h : Search.Gen demoC ⟨[], [], []⟩ y) : y.ms = [] ∨ y.ms = [demoM] := by
  induction h with
  | root => exact .inl rfl
  | @move y y' z _ _ _ _ hz ih _ =>
    have hz : z ∈ drive demoE demoP 0 demoG y := hz
    have stay : ∀ P L, run demoE (fun _ => 0) demoP 0 y.ms = some (P :: L) → z.ms = y.ms ∨ (P.R.prog.rules = demoP.rules ∧ z.ms = demoM :: y.ms) := by
      intro P L hr
      simp only [drive, hr] at hz
      rcases List.mem_append.1 hz with hz | hz
      · rcases List.mem_append.1 hz with hz | hz
        · split at hz
          · simp only [driveFolds, List.mem_flatMap] at hz
            obtain ⟨Dd, _, hz⟩ := hz
            split at hz
            · cases hz
            · simp [demoG] at hz
          · cases hz
        · unfold driveEureka at hz
          split at hz
          · cases hz
          · simp only [demoG, List.map_nil, List.mem_singleton] at hz
            left; rw [hz]
      · split at hz
        · unfold driveUnfold at hz
          split at hz
          · cases hz
          · rename_i r i ht
            rcases List.mem_cons.1 hz with hz | hz
            · left; rw [hz]
            · obtain ⟨xj, hx, hz⟩ := List.mem_flatMap.1 hz
              obtain ⟨x, j⟩ := xj
              cases x with
              | val k => cases hz
              | sub x =>
                simp only at hz
                split at hz
                · rename_i hc
                  simp only [demoG, decide_eq_true_eq] at hc
                  refine .inr ⟨hc.1, ?_⟩
                  rw [List.mem_singleton.1 hz]
                  have hmem := List.mem_of_find?_eq_some ht
                  rw [List.mk_mem_zipIdx_iff_getElem?, hc.1] at hmem
                  rw [List.mk_mem_zipIdx_iff_getElem?] at hx
                  have hall : ∀ i ∈ List.range 3, ∀ j ∈ List.range 3, (demoP.rules[i]?.bind fun r => r.body[j]?) = some (.sub (at' "z" [])) → i = 2 ∧ j = 0 := by decide
                  have hi : i < 3 := (List.getElem?_eq_some_iff.1 hmem).1
                  have hj : j < 3 := by
                    have hlen : ∀ r ∈ demoP.rules, r.body.length ≤ 3 := by decide
                    have h1 := (List.getElem?_eq_some_iff.1 hx).1
                    have h2 := hlen r (List.mem_of_getElem? hmem)
                    omega
                  obtain ⟨rfl, rfl⟩ := hall i (List.mem_range.2 hi) j (List.mem_range.2 hj) (by rw [hmem, Option.bind_some, hx, hc.2])
                  rfl
                · cases hz
        · cases hz
    rcases ih with h | h
    · rcases stay _ _ (by rw [h]; rfl) with h1 | ⟨_, h1⟩
      · exact .inl (h1.trans h)
      · exact .inr (by rw [h1, h])
    · cases hr : run demoE (fun _ => 0) demoP 0 y.ms with
      | none => simp [drive, hr] at hz
      | some L =>
        cases L with
        | nil => simp [drive, hr] at hz
        | cons P L =>
          rcases stay _ _ hr with h1 | ⟨h1, _⟩
          · exact .inr (h1.trans h)
          · exfalso
            have h2 := C85_rules demoE _ demoP 0 _ hr
            rw [h1, h] at h2
            revert h2
            decide +kernel

/-- whatever the search returns has the values of the program -/
example {cs : List Search.Choice} {s : Search.St (State TV) (List (Move TV)) (List (WRule TV)) Nat} (h : Search.After demoC ⟨[], [], []⟩ cs s) :
    Agrees ltOps demoP 0 (rulesOf demoE demoP 0 s.best) := by
  refine (C85_search demo_setup demoG _ _ _ (fun p q hk => ?_) (fun y hy a => ?_) h).1
  · rw [hk]
    exact (RuleOps.C17_eq eqOps_faithful.lawful (by simp)).2 ⟨_, .refl _, List.forall₂_same.2 fun r _ => eqOps_faithful.lawful.refl r⟩
  · rcases demo_gen hy with h | h
    · rw [h]; trivial
    · rw [h]
      refine ⟨trivial, fun L hL P L' r q hP hr hq => ?_⟩
      obtain ⟨h1, h2⟩ := demo_at [] (rs := demoP.rules) (is := demoP.inputs) (by decide +kernel) hL hP
      rw [h1] at hr
      cases hr
      cases hq
      refine ⟨?_, by rw [h1]; decide⟩
      rw [h2]
      exact pr_goal (by decide) (by decide) ⟨_, rfl⟩

/-- the search does come to the program with `z` unfolded -/
example : (∃ y, Search.Gen demoC ⟨[], [], []⟩ y ∧ y.ms = [demoM]) ∧
    rulesOf demoE demoP 0 [demoM] = [("goal", ["b", "c", "d"]), ("z", ["b", "c", "d"]), ("y", ["b", "c", "d"])].map pr := by
  refine ⟨⟨⟨[demoM], [pr ("y", ["z"]), pr ("z", ["b", "c", "d"]), pr ("goal", ["b", "c", "d"])], [pr ("y", ["z"]), pr ("z", ["b", "c", "d"]), pr ("goal", ["b", "c", "d"])]⟩, ?_, rfl⟩, by decide +kernel⟩
  have h0 : Search.Gen demoC ⟨[], [], []⟩ ⟨[], [], []⟩ := .root
  have h1 : Search.Gen demoC ⟨[], [], []⟩ ⟨[], [pr ("goal", ["b", "c", "d"])], []⟩ := .move h0 h0 rfl rfl (List.mem_of_getElem? (i := 0) rfl)
  have h2 : Search.Gen demoC ⟨[], [], []⟩ ⟨[], [pr ("z", ["b", "c", "d"]), pr ("goal", ["b", "c", "d"])], []⟩ := .move h1 h1 rfl rfl (List.mem_of_getElem? (i := 0) rfl)
  have h3 : Search.Gen demoC ⟨[], [], []⟩ ⟨[], [pr ("y", ["z"]), pr ("z", ["b", "c", "d"]), pr ("goal", ["b", "c", "d"])], []⟩ := .move h2 h2 rfl rfl (List.mem_of_getElem? (i := 0) rfl)
  have h4 : Search.Gen demoC ⟨[], [], []⟩ ⟨[], [pr ("y", ["z"]), pr ("z", ["b", "c", "d"]), pr ("goal", ["b", "c", "d"])], [pr ("goal", ["b", "c", "d"])]⟩ := .move h3 h3 rfl rfl (List.mem_of_getElem? (i := 0) rfl)
  have h5 : Search.Gen demoC ⟨[], [], []⟩ ⟨[], [pr ("y", ["z"]), pr ("z", ["b", "c", "d"]), pr ("goal", ["b", "c", "d"])], [pr ("z", ["b", "c", "d"]), pr ("goal", ["b", "c", "d"])]⟩ :=
    .move h4 h4 rfl rfl (List.mem_of_getElem? (i := 0) rfl)
  exact .move h5 h5 rfl rfl (List.mem_of_getElem? (i := 1) rfl)

/-- the same by the theorem -/
example : ∃ z, Search.Gen demoC ⟨[], [], []⟩ z ∧ z.ms = [demoM] :=
  (C85_moves (e := demoE) (root := demoP) (c0 := 0) (g := demoG) (y := ⟨[], [], []⟩) (fun r => by simp [demoG]) .root rfl (P := first demoE (fun _ => 0) demoP 0) (L := []) rfl
    (fun i j r s hi hj hij => decide_eq_false fun h => hij ((List.getElem?_inj (List.getElem?_eq_some_iff.1 hi).1 (show demoP.rules.Nodup by decide)).1 (by rw [hi, hj, h])))).2.1
    2 _ 0 _ rfl rfl rfl (by decide)

/-- a generated program comes from a generated program -/
example {y : State TV} (h : Search.Gen demoC ⟨[], [], []⟩ y) : y.ms = [] ∨ ∃ m z, y.ms = m :: z.ms ∧ Search.Gen demoC ⟨[], [], []⟩ z := C85_generated h

/-- all subgoals that are no inputs can be unfolded, as in `safe_inline` for a program without inputs -/
def allG : Cands TV := ⟨fun r s => decide (r = s), fun _ => [], fun _ _ => [], fun _ _ _ => none, fun _ _ => true, fun _ => 20, fun _ => 0, fun _ => 1⟩

/-- **C85 (builtins).**  For a rule with a builtin, the search comes to the program in which the builtin is unfolded.  The unfolding works, but its measure cannot be
computed, for no values of the unknowns: `check_measure` raises, which ends the search. -/
theorem C85_builtin_raises : (∃ y, Search.Gen (cfg demoE Measure.eqP 0 allG (fun _ => 0) (fun _ => 0) (rulesOf demoE Measure.eqP 0)) ⟨[], [], []⟩ y ∧ y.ms = [.unfold 20 0 0 0]) ∧
    (unfold 20 ltOps TV.t 0 Measure.eqP Measure.eqP 0 0).map (fun r => (r.1, r.2.2)) = some ([⟨at' "goal" [], [.val 1]⟩], .done) ∧
    ∀ a, run demoE a Measure.eqP 0 [.unfold 20 0 0 0] = none := by
  refine ⟨⟨⟨[.unfold 20 0 0 0], Measure.eqP.rules, Measure.eqP.rules⟩, ?_, rfl⟩, by decide +kernel, fun a => ?_⟩
  · generalize hg : cfg demoE Measure.eqP 0 allG (fun _ => 0) (fun _ => 0) (rulesOf demoE Measure.eqP 0) = g
    have h0 : Search.Gen g ⟨[], [], []⟩ ⟨[], [], []⟩ := .root
    have h1 : Search.Gen g ⟨[], [], []⟩ ⟨[], Measure.eqP.rules, []⟩ := by subst hg; exact .move h0 h0 rfl rfl (List.mem_of_getElem? (i := 0) rfl)
    subst hg
    exact .move h1 h1 rfl rfl (List.mem_of_getElem? (i := 1) rfl)
  · have h : (run demoE (fun _ => 0) Measure.eqP 0 [.unfold 20 0 0 0]).isNone = true := by decide +kernel
    rcases run_alike demoE a (fun _ => 0) Measure.eqP 0 [.unfold 20 0 0 0] with ⟨h1, _⟩ | ⟨_, _, _, h2, _⟩
    · exact h1
    · rw [h2] at h; cases h

end Examples
end SearchMoves
end Verif
