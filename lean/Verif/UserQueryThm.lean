/-
Property C91: the answer to a query.
-/
import Verif.UserQuery
import Verif.SolverThm
import Verif.TermOpsThm

set_option linter.unusedSectionVars false
set_option linter.unusedSimpArgs false

namespace Verif
open Tm Heap

namespace UserQuery
open Solver
variable {K : Type} [CommSemiring K] [DecidableEq K]

/-- the rule `x += v` -/
def fact (e : Tm × K) : WRule K := ⟨e.1, [.val e.2]⟩

/-! ### Constant folding of ground facts -/

theorem canonP_ground {cv : Nat → Nat} (hcv : Function.Injective cv) {x : Tm} (h : Ground x) : canonP cv x = x := by
  obtain ⟨ρ, _, h1⟩ := canonP_variant hcv x
  rw [h1, Chart.sub_ground h]

theorem fold_fact (dead : K → Bool) (e : Tm × K) : WRule.fold dead (fact e) = if dead e.2 then none else some (fact e) := by
  simp [WRule.fold, fact, WRule.vals, WRule.subs]

theorem set_new {α β : Type} [DecidableEq α] (d : Dict α β) (k : α) (b : β) (h : k ∉ Dict.keys d) : d.set k b = d ++ [(k, b)] := by
  induction d with
  | nil => rfl
  | cons e d ih =>
    simp only [Dict.keys, List.map_cons, List.mem_cons, not_or] at h
    rw [Dict.set, if_neg (Ne.symm h.1), ih h.2]
    rfl

theorem key_ground {cv : Nat → Nat} (hcv : Function.Injective cv) {ord : List Tm → List Tm} (hord : ∀ l, (ord l).Perm l) {x : Tm} (h : Ground x) :
    CFold.key cv ord x [] = .app [.con (.str "$skel"), x] := by
  have : ord [] = [] := List.perm_nil.1 (hord [])
  unfold CFold.key
  rw [this]
  refine canonP_ground hcv ?_
  simp only [Ground] at h
  simp [Ground, h]

theorem foldl_add {cv : Nat → Nat} (hcv : Function.Injective cv) {ord : List Tm → List Tm} (hord : ∀ l, (ord l).Perm l) : ∀ (es : List (Tm × K)) (d : CFold.Buckets K),
    (∀ e ∈ es, Ground e.1) → (es.map Prod.fst).Nodup → (∀ e ∈ es, Tm.app [.con (.str "$skel"), e.1] ∉ Dict.keys d) →
    (es.map fact).foldl (CFold.add cv ord) d = d ++ es.map fun e => (.app [.con (.str "$skel"), e.1], e.1, [], e.2)
  | [], d, _, _, _ => by simp
  | e :: es, d, hg, hn, hd => by
    rw [List.map_cons, List.nodup_cons] at hn
    have h1 : CFold.add cv ord d (fact e) = d ++ [(.app [.con (.str "$skel"), e.1], e.1, [], e.2)] := by
      have hs : CFold.split (fact e) = (e.2, []) := by simp [CFold.split, fact, WRule.subs]
      unfold CFold.add
      simp only [hs]
      rw [show (fact e).head = e.1 from rfl, key_ground hcv hord (hg e (by simp)), (Dict.get_eq_none_iff _ _).2 (hd e (by simp))]
      exact set_new _ _ _ (hd e (by simp))
    rw [List.map_cons, List.foldl_cons, h1, foldl_add hcv hord es _ (fun e' h => hg e' (by simp [h])) hn.2 ?_]
    · simp
    · intro e' he' hc
      simp only [Dict.keys, List.map_append, List.mem_append, List.map_cons, List.map_nil, List.mem_singleton, Tm.app.injEq, List.cons.injEq, true_and, and_true] at hc
      rcases hc with hc | hc
      · exact hd e' (by simp [he']) hc
      · exact hn.1 (hc ▸ List.mem_map_of_mem he')

theorem foldl_chart {cv : Nat → Nat} (hcv : Function.Injective cv) : ∀ (es : List (Tm × K)) (d : Dict Tm K), (∀ e ∈ es, Ground e.1) → (es.map Prod.fst).Nodup → (∀ e ∈ es, e.1 ∉ Dict.keys d) →
    (es.map fun e => (e.1, ([] : List Tm), e.2)).foldl (CFold.addChart cv) d = d ++ es
  | [], d, _, _, _ => by simp
  | e :: es, d, hg, hn, hd => by
    rw [List.map_cons, List.nodup_cons] at hn
    have h1 : CFold.addChart cv d (e.1, [], e.2) = d ++ [e] := by
      unfold CFold.addChart
      simp only [if_true]
      rw [canonP_ground hcv (hg e (by simp)), (Dict.get_eq_none_iff _ _).2 (hd e (by simp)), set_new _ _ _ (hd e (by simp))]
      simp
    rw [List.map_cons, List.foldl_cons, h1, foldl_chart hcv es _ (fun e' h => hg e' (by simp [h])) hn.2 ?_]
    · simp
    · intro e' he' hc
      simp only [Dict.keys, List.map_append, List.mem_append, List.map_cons, List.map_nil, List.mem_singleton] at hc
      rcases hc with hc | hc
      · exact hd e' (by simp [he']) hc
      · exact hn.1 (hc ▸ List.mem_map_of_mem he')

/-- ground facts for different items: those of small value are dropped, nothing else happens -/
theorem folded_facts {cv : Nat → Nat} (hcv : Function.Injective cv) {ord : List Tm → List Tm} (hord : ∀ l, (ord l).Perm l) (dead : K → Bool) {es : List (Tm × K)}
    (hg : ∀ e ∈ es, Ground e.1) (hn : (es.map Prod.fst).Nodup) : CFold.folded cv ord dead (es.map fact) = (es.filter fun e => !dead e.2).map fact := by
  have h1 : (es.map fact).filterMap (WRule.fold dead) = (es.filter fun e => !dead e.2).map fact := by
    clear hn hg
    induction es with
    | nil => rfl
    | cons e es ih =>
      rw [List.map_cons, List.filterMap_cons, fold_fact, ih]
      cases h : dead e.2 <;> simp [h]
  have hg' : ∀ e ∈ es.filter fun e => !dead e.2, Ground e.1 := fun e he => hg e (List.mem_of_mem_filter he)
  have hn' : ((es.filter fun e => !dead e.2).map Prod.fst).Nodup := hn.sublist (List.filter_sublist.map _)
  unfold CFold.folded CFold.merged
  rw [h1, foldl_add hcv hord _ _ hg' hn' (by simp [Dict.keys])]
  simp only [List.nil_append, List.map_map]
  have h2 : (List.map (Prod.snd ∘ fun e : Tm × K => (Tm.app [.con (.str "$skel"), e.1], e.1, ([] : List Tm), e.2)) (es.filter fun e => !dead e.2)) =
    (es.filter fun e => !dead e.2).map fun e => (e.1, ([] : List Tm), e.2) := List.map_congr_left fun e _ => rfl
  rw [h2, foldl_chart hcv _ _ hg' hn' (by simp [Dict.keys])]
  have h3 : ((es.filter fun e => !dead e.2).map fun e => (e.1, ([] : List Tm), e.2)).filterMap CFold.symbolic = [] := by
    rw [List.filterMap_eq_nil_iff]
    intro b hb
    obtain ⟨e, _, rfl⟩ := List.mem_map.1 hb
    simp [CFold.symbolic]
  rw [h3]
  rfl

/-! ### The facts found -/

theorem facts_spec {f : Nat} {chart : Dict Tm K} {cand : Tm → List Tm} (hch : ∀ x ∈ Dict.keys chart, Ground x)
    (hc : ∀ c as, (cand (.app (.con c :: as))).Nodup ∧ (∀ x ∈ cand (.app (.con c :: as)), x ∈ Dict.keys chart) ∧
      ∀ x ∈ Dict.keys chart, InstanceOf x (.app (.con c :: as)) → x ∈ cand (.app (.con c :: as)))
    {c : Const} {as : List Tm} {rs : List (WRule K)} (h : facts f chart cand (.app (.con c :: as)) = some (rs, .done)) :
    ∃ es : List (Tm × K), rs = es.map fact ∧ (es.map Prod.fst).Nodup ∧ ∀ x v, (x, v) ∈ es ↔ Dict.get chart x = some v ∧ InstanceOf x (.app (.con c :: as)) := by
  generalize hq : Tm.app (.con c :: as) = q at h ⊢
  unfold facts at h
  split at h
  · rename_i h' rs' sig e
    cases h
    obtain ⟨L, hL, hr⟩ := join_spec (by
      intro P h s h' s' sig e
      simp only at e
      split at e
      · cases e
      · cases e; rfl) hch hc [.sub q] (fun t ht => by
        simp only [List.mem_singleton, BLit.sub.injEq] at ht
        exact ⟨c, as, ht.trans hq.symm⟩) [] noHeap [] _ _ good_noHeap e
    have one : ∀ p ∈ L, ∃ v, p.1 = [v] ∧ Dict.get chart (q.sub (res p.2)) = some v := by
      intro p hp
      obtain ⟨_, h2⟩ := hL.sound p hp _ (hL.good p hp).respects_res
      obtain ⟨v, vs, h3, h4, h5⟩ := List.forall₂_cons_left_iff.1 h2
      rw [List.forall₂_nil_left_iff] at h4
      exact ⟨v, h5.trans (by rw [h4]), h3⟩
    have hrun : ∀ {L : List (List K × Heap)} {s s' : List (WRule K)}, (∀ p ∈ L, ∃ v, p.1 = [v] ∧ Dict.get chart (q.sub (res p.2)) = some v) →
        RunCalls (fun vs => (fun P h s => match derefF h f q with
          | none => none
          | some t => some (h, s ++ [(⟨t, P.map .val⟩ : WRule K)], Sig.done)) ([] ++ vs)) L s s' →
        s' = s ++ (L.map fun p => (q.sub (res p.2), p.1.headD 0)).map fact := by
      intro L s s' ho hr
      induction hr with
      | nil => simp
      | cons e _ ih =>
        rename_i a h L s s1 s2 _
        simp only [List.nil_append] at e
        split at e
        · cases e
        · rename_i t ht
          cases e
          rw [ih fun p hp => ho p (by simp [hp])]
          obtain ⟨v, hv, _⟩ := ho (a, h) (by simp)
          simp only at hv
          subst hv
          simp [fact, deref_eq_sub ht]
    have hs := hrun one hr
    rw [List.nil_append] at hs
    refine ⟨_, hs, ?_, fun x v => ?_⟩
    · rw [List.map_map]
      rw [List.Nodup, List.pairwise_map]
      refine hL.disjoint.imp_of_mem fun {p p'} hp hp' hd heq => ?_
      simp only [Function.comp_apply] at heq
      refine hd (res p.2) (res p'.2) (fun z hz n hn => ?_) (hL.good p hp).respects_res (hL.good p' hp').respects_res
      simp only [List.mem_singleton] at hz
      subst hz
      exact sub_eq_on_vars heq n hn
    · simp only [List.mem_map, Prod.mk.injEq]
      constructor
      · rintro ⟨p, hp, rfl, rfl⟩
        obtain ⟨v, h1, h2⟩ := one p hp
        rw [h1]
        exact ⟨h2, _, rfl⟩
      · rintro ⟨h1, σ, rfl⟩
        obtain ⟨p, hp, h2, h3⟩ := hL.complete σ [v] (fun n t e => by cases e) (.cons h1 .nil)
        refine ⟨p, hp, ?_, by rw [h3]; rfl⟩
        obtain ⟨w, h4, h5⟩ := one p hp
        have hgr := hch _ ((Dict.mem_keys_iff_get _ _).2 ⟨w, h5⟩)
        rw [← (hL.good p hp).sub_res h2 q, Chart.sub_ground hgr]
  · cases h

/-! ### The answer -/

theorem answers {dead : K → Bool} {cv : Nat → Nat} (hcv : Function.Injective cv) {ord : List Tm → List Tm} (hord : ∀ l, (ord l).Perm l)
    {srt : List (WRule K) → List (WRule K)} (hsrt : ∀ l, (srt l).Perm l)
    {g : Cfg K} (hr : ∀ r ∈ g.rules, Safe r) {D : List (Tm × K)} {st : St K} (h : Run g D st) {cand : Dict Tm K → Tm → List Tm} (hc : LawfulCand cand)
    {f : Nat} {c : Const} {as : List Tm} {res : List (WRule K)} (e : userQuery cv ord srt dead f st.chart (cand st.chart) (.app (.con c :: as)) = some res) :
    (∀ r, r ∈ res ↔ ∃ x v, Dict.get st.chart x = some v ∧ InstanceOf x (.app (.con c :: as)) ∧ dead v = false ∧ r = ⟨x, [.val v]⟩) ∧ (res.map (·.head)).Nodup := by
  have hi := sinv_run hr h
  unfold userQuery at e
  split at e
  · rename_i rs e1
    cases e
    obtain ⟨es, rfl, hn, hes⟩ := facts_spec hi.ground (fun c as => hc st.chart c as hi.wf hi.ground) e1
    have hg : ∀ p ∈ es, Ground p.1 := fun p hp => hi.ground _ ((Dict.mem_keys_iff_get _ _).2 ⟨p.2, ((hes p.1 p.2).1 hp).1⟩)
    rw [folded_facts hcv hord dead hg hn]
    constructor
    · intro r
      rw [(hsrt _).mem_iff]
      simp only [List.mem_map, List.mem_filter, Bool.not_eq_eq_eq_not, Bool.not_true, fact]
      constructor
      · rintro ⟨p, ⟨hp, hd⟩, rfl⟩
        exact ⟨p.1, p.2, ((hes _ _).1 hp).1, ((hes _ _).1 hp).2, hd, rfl⟩
      · rintro ⟨x, v, h1, h2, hd, rfl⟩
        exact ⟨(x, v), ⟨(hes _ _).2 ⟨h1, h2⟩, hd⟩, rfl⟩
    · rw [((hsrt _).map _).nodup_iff, List.map_map]
      have : ((fun r : WRule K => r.head) ∘ fact) = Prod.fst := rfl
      rw [this]
      exact hn.sublist (List.filter_sublist.map _)
  · cases e

/-- The answer to a query has one fact for each item of the chart that is an instance of the query and whose value is not taken for zero, with that value; it has nothing else, and no item twice. -/
theorem C91_answers {dead : K → Bool} {cv : Nat → Nat} (hcv : Function.Injective cv) {ord : List Tm → List Tm} (hord : ∀ l, (ord l).Perm l)
    {srt : List (WRule K) → List (WRule K)} (hsrt : ∀ l, (srt l).Perm l)
    {g : Cfg K} (hr : ∀ r ∈ g.rules, Safe r) {D : List (Tm × K)} {st : St K} (h : Run g D st) {cand : Dict Tm K → Tm → List Tm} (hc : LawfulCand cand)
    {f : Nat} {c : Const} {as : List Tm} {res : List (WRule K)} (e : userQuery cv ord srt dead f st.chart (cand st.chart) (.app (.con c :: as)) = some res) :
    (∀ r, r ∈ res ↔ ∃ x v, Dict.get st.chart x = some v ∧ InstanceOf x (.app (.con c :: as)) ∧ dead v = false ∧ r = ⟨x, [.val v]⟩) ∧ (res.map (·.head)).Nodup :=
  answers hcv hord hsrt hr h hc e

/-- When the solver has finished with exact comparison and only zero is taken for zero, the answer holds the instances of the query with a value other than zero in the least solution. -/
theorem C91_least [PartialOrder K] [IsOrderedRing K] (h0 : ∀ k : K, 0 ≤ k) {dead : K → Bool} (hdead : ∀ k, dead k = true ↔ k = 0) {cv : Nat → Nat} (hcv : Function.Injective cv)
    {ord : List Tm → List Tm} (hord : ∀ l, (ord l).Perm l) {srt : List (WRule K) → List (WRule K)} (hsrt : ∀ l, (srt l).Perm l)
    {g : Cfg K} (hr : ∀ r ∈ g.rules, Safe r) (hex : Exact g) {D : List (Tm × K)} {st : St K} (h : Run g D st) (hall : ∀ i < g.rules.length, i ∈ st.inited) (hq : st.chg.agenda = [])
    {cand : Dict Tm K → Tm → List Tm} (hc : LawfulCand cand)
    {f : Nat} {c : Const} {as : List Tm} {res : List (WRule K)} (e : userQuery cv ord srt dead f st.chart (cand st.chart) (.app (.con c :: as)) = some res) :
    ∃ w : Tm → K, PreSol g.rules (Kept g.prio) (dataAt D) w ∧ (∀ v, PreSol g.rules (Kept g.prio) (dataAt D) v → ∀ x, w x ≤ v x) ∧
      ∀ r, r ∈ res ↔ ∃ x, InstanceOf x (.app (.con c :: as)) ∧ w x ≠ 0 ∧ r = ⟨x, [.val (w x)]⟩ := by
  obtain ⟨h1, _, h2⟩ := C24_least h0 hr hex h hall hq
  refine ⟨value st.chart, h1, h2, fun r => ?_⟩
  rw [(answers hcv hord hsrt hr h hc e).1 r]
  have hd : ∀ k, dead k = false ↔ k ≠ 0 := fun k => by rw [← Bool.not_eq_true, hdead]
  constructor
  · rintro ⟨x, v, h3, h4, h5, rfl⟩
    have : value st.chart x = v := by simp [value, h3]
    exact ⟨x, h4, by rw [this]; exact (hd v).1 h5, by rw [this]⟩
  · rintro ⟨x, h3, h4, rfl⟩
    cases h5 : Dict.get st.chart x with
    | none => exact absurd (by simp [value, h5]) h4
    | some v =>
      have : value st.chart x = v := by simp [value, h5]
      exact ⟨x, v, h5, h3, (hd v).2 (this ▸ h4), by rw [this]⟩

section Examples

private def ct (s : String) : Tm := .con (.str s)
private def edge (x y : Tm) : Tm := .app [ct "edge", x, y]
private def path (x y : Tm) : Tm := .app [ct "path", x, y]

/-- `path(X,Y) += edge(X,Y).  path(X,Z) += path(X,Y) * edge(Y,Z).` -/
private def prog (K : Type) : List (SRule K) := [⟨path (.var 0) (.var 1), [.sub (edge (.var 0) (.var 1))]⟩,
  ⟨path (.var 0) (.var 2), [.sub (path (.var 0) (.var 1)), .sub (edge (.var 1) (.var 2))]⟩]

private def cfg : Cfg ℕ := ⟨prog ℕ, none, fun a b => a == b, 0⟩
private def data : List (Tm × ℕ) := [(edge (ct "a") (ct "b"), 2), (edge (ct "b") (ct "c"), 3), (edge (ct "a") (ct "c"), 5)]

private def run1 := execCall cfg 40 0 60 (Solver.facts data) St.empty

-- `path("a", Y)`, answered from the chart's index, with the answers sorted the other way round
example : run1.bind (fun st => userQuery id id List.reverse (· == 0) 40 st.chart (indexCands ⟨st.chart, []⟩) (path (ct "a") (.var 7))) =
    some [⟨path (ct "a") (ct "c"), [.val 11]⟩, ⟨path (ct "a") (ct "b"), [.val 2]⟩] := by decide +kernel

-- a variable that occurs twice
example : run1.bind (fun st => userQuery id id id (· == 0) 40 st.chart (indexCands ⟨st.chart, []⟩) (path (.var 7) (.var 7))) = some [] := by decide +kernel

-- the hypotheses of `C91_answers` and `C91_least`
example : ∃ D st, Run cfg D st ∧ (∀ i < cfg.rules.length, i ∈ st.inited) ∧ st.chg.agenda = [] ∧ Exact cfg ∧
    ∃ res, userQuery id id id (· == 0) 40 st.chart (indexCands ⟨st.chart, []⟩) (path (ct "a") (.var 7)) = some res := by
  have h1 : run1.isSome = true := by decide +kernel
  obtain ⟨st, e1⟩ := Option.isSome_iff_exists.1 h1
  have hs : Session cfg [Solver.facts data] st := .call .start (execCall_sound e1)
  obtain ⟨ds, _, h2, h3⟩ := session_run hs
  obtain ⟨h4, h5⟩ := h3 (by simp)
  have v1 : (run1.bind fun st => userQuery id id id (· == 0) 40 st.chart (indexCands ⟨st.chart, []⟩) (path (ct "a") (.var 7))).isSome = true := by decide +kernel
  rw [e1] at v1
  exact ⟨_, st, h2, h4, h5, by intro a b h; simpa [cfg] using h, Option.isSome_iff_exists.1 v1⟩

example : ∀ r ∈ cfg.rules, Safe r := by
  intro r hr
  simp only [cfg, prog, List.mem_cons, List.not_mem_nil, or_false] at hr
  rcases hr with rfl | rfl
  · refine ⟨fun n hn => .sub (t := edge (.var 0) (.var 1)) (by simp) ?_, ?_⟩
    · rcases hn with hn | ⟨z, hz, hn⟩
      · simpa [path, edge, ct] using hn
      · simp only [List.mem_singleton] at hz; subst hz; exact hn
    · intro t ht; simp only [List.mem_singleton, BLit.sub.injEq] at ht; subst ht; exact ⟨_, _, rfl⟩
  · refine ⟨fun n hn => ?_, ?_⟩
    · have : n = 0 ∨ n = 1 ∨ n = 2 := by
        rcases hn with hn | ⟨z, hz, hn⟩
        · simp [path, ct] at hn; omega
        · simp only [List.mem_cons, List.not_mem_nil, or_false] at hz
          rcases hz with rfl | rfl <;> simp [litVars, path, edge, ct] at hn <;> omega
      rcases this with rfl | rfl | rfl
      · exact .sub (t := path (.var 0) (.var 1)) (by simp) (by simp [path, ct])
      · exact .sub (t := path (.var 0) (.var 1)) (by simp) (by simp [path, ct])
      · exact .sub (t := edge (.var 1) (.var 2)) (by simp) (by simp [edge, ct])
    · intro t ht
      simp only [List.mem_cons, BLit.sub.injEq, List.not_mem_nil, or_false] at ht
      rcases ht with rfl | rfl <;> exact ⟨_, _, rfl⟩

/-- weights as rational numbers; those of size at most 1/10000000 are taken for zero by `constant_folding` -/
private def small (v : ℚ) : Bool := decide (-1/10000000 ≤ v ∧ v ≤ 1/10000000)

private def run2 := execCall (⟨prog ℚ, none, fun a b => a == b, 0⟩ : Cfg ℚ) 40 0 60 (Solver.facts [(edge (ct "a") (ct "b"), 1/10000), (edge (ct "b") (ct "c"), 1/10000)]) St.empty

-- two edges of probability 1/10000: the path of both is in the chart, and is not among the answers
example : run2.map (fun st => value st.chart (path (ct "a") (ct "c"))) = some (1/100000000) := by decide +kernel
example : run2.bind (fun st => userQuery id id id small 40 st.chart (indexCands ⟨st.chart, []⟩) (path (.var 7) (.var 8))) =
    some [⟨path (ct "a") (ct "b"), [.val (1/10000)]⟩, ⟨path (ct "b") (ct "c"), [.val (1/10000)]⟩] := by decide +kernel

end Examples

end UserQuery
end Verif
