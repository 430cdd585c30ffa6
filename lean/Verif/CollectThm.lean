/-
Property C88: collections of programs.
-/
import Verif.Collect
import Verif.SearchMovesThm
import Verif.FoldSearch
import Verif.MeasureWit

set_option linter.unusedSectionVars false
set_option linter.unusedSimpArgs false

namespace Verif
open Tm Heap Sem

namespace Collect
open Unfold (Prog Ops)
open Measure (Rec Ival unfoldM violates zeroMeasure anyO minSize addRef)
open SearchMoves
variable {W : Type}

/-! ### What is in a collection -/

/-- specification: what a method may do with a program whose lineage is `P :: L` -/
def Allowed (n : Gens W) (ms : List (Move W)) (P : Stage W) (L : List (Stage W)) : Op → Move W → Prop
  | .eurekas, m => ∃ i r fs, P.R.prog.rules[i]? = some r ∧ fs ∈ n.g.elims r ∧ m = .hook (n.g.fuel ms) (n.g.mark ms) i fs (n.name ms i fs)
  | .foldsSeq, m => ∃ (d : Nat) (D : Stage W) (ix : List Nat) (rj : WRule W × Nat) (S : Finset Nat), (P :: L)[d]? = some D ∧ D.defIx = some ix ∧
      rj ∈ n.g.props P.R.prog (ix.filterMap fun i => D.R.prog.rules[i]?) ∧ n.g.parts P.R.prog D.R.prog rj = some S ∧
      m = .fold (n.g.fuel ms) (n.g.mark ms) d rj.1 S rj.2
  | .unfoldsSeq first, m => ∃ (i j : Nat) (r : WRule W) (x : Tm) (d : Nat) (D : Stage W), P.R.prog.rules[i]? = some r ∧ r.body[j]? = some (.sub x) ∧ n.g.inline P.R.prog x = true ∧
      (P :: L)[d]? = some D ∧ isItem (n.g.fuel ms) D.R.prog x = some true ∧
      (first = true → ∀ (d' : Nat) (D' : Stage W), d < d' → (P :: L)[d']? = some D' → isItem (n.g.fuel ms) D'.R.prog x ≠ some true) ∧
      m = .unfoldBy (n.g.fuel ms) (n.g.mark ms) d i j

theorem mem_unfoldsBy {f : Nat} {first : Bool} {x : Tm} {d : Nat} : ∀ {l : List (Stage W × Nat)}, (l.Pairwise fun a b => b.2 < a.2) →
    (d ∈ unfoldsBy f first x l ↔ ∃ D, (D, d) ∈ l ∧ isItem f D.R.prog x = some true ∧ (first = true → ∀ d' D', d < d' → (D', d') ∈ l → isItem f D'.R.prog x ≠ some true))
  | [], _ => by simp [unfoldsBy]
  | (E, k) :: l, hp => by
    obtain ⟨h1, h2⟩ := List.pairwise_cons.1 hp
    have ih := mem_unfoldsBy (f := f) (first := first) (x := x) (d := d) h2
    rw [unfoldsBy]
    by_cases hE : isItem f E.R.prog x = some true
    · rw [if_pos hE, List.mem_cons]
      constructor
      · rintro (rfl | h)
        · refine ⟨E, by simp, hE, fun _ d' D' hd hD' => ?_⟩
          rcases List.mem_cons.1 hD' with h | h
          · cases h; exact absurd hd (lt_irrefl _)
          · have := h1 _ h; simp only at this hd; omega
        · cases first with
          | true => simp at h
          | false =>
            simp only [Bool.false_eq_true, if_false] at h
            obtain ⟨D, h3, h4, _⟩ := ih.1 h
            exact ⟨D, List.mem_cons_of_mem _ h3, h4, by simp⟩
      · rintro ⟨D, h3, h4, h5⟩
        rcases List.mem_cons.1 h3 with h | h
        · cases h; exact .inl rfl
        · right
          cases first with
          | true => exact absurd hE (h5 rfl k E (h1 _ h) (by simp))
          | false =>
            simp only [Bool.false_eq_true, if_false]
            exact ih.2 ⟨D, h, h4, by simp⟩
    · rw [if_neg hE, ih]
      constructor
      · rintro ⟨D, h3, h4, h5⟩
        refine ⟨D, List.mem_cons_of_mem _ h3, h4, fun hf d' D' hd hD' => ?_⟩
        rcases List.mem_cons.1 hD' with h | h
        · cases h; exact hE
        · exact h5 hf d' D' hd h
      · rintro ⟨D, h3, h4, h5⟩
        rcases List.mem_cons.1 h3 with h | h
        · cases h; exact absurd h4 hE
        · exact ⟨D, h, h4, fun hf d' D' hd hD' => h5 hf d' D' hd (List.mem_cons_of_mem _ hD')⟩

theorem zipIdx_desc {α : Type} (l : List α) : l.zipIdx.reverse.Pairwise fun a b => b.2 < a.2 := by
  rw [List.pairwise_reverse, List.pairwise_iff_getElem]
  intro i j hi hj hij
  simpa using hij

section
variable [One W] [DecidableEq W] {S' : Type} [DecidableEq S']

/-- **C88 (members).**  The methods keep the programs of the collection, and add exactly the programs that result by one move of their kind: every hook of the factors of a rule;
every proposed fold by the definitions of the lineage; every unfolding by a program of the lineage that the subgoal is an item of, and for `unfolds_first`
only by the oldest such program. -/
theorem C88_members (e : Env W S') (root : Prog W) (c : Nat) (n : Gens W) (op : Op) (C : Coll W) (ms : List (Move W)) :
    ms ∈ op.apply e root c n C ↔ ms ∈ C ∨ ∃ ms0 ∈ C, ∃ P L m, run e (fun _ => 0) root c ms0 = some (P :: L) ∧ Allowed n ms0 P L op m ∧ ms = m :: ms0 := by
  rw [Op.apply, List.mem_append, List.mem_flatMap]
  refine or_congr Iff.rfl (exists_congr fun ms0 => and_congr Iff.rfl ?_)
  have key : ∀ P L, (ms ∈ (match op with
      | .eurekas => eurekasOf n ms0 P
      | .foldsSeq => foldsOf n ms0 P L
      | .unfoldsSeq first => unfoldsOf n first ms0 P L)) ↔ ∃ m, Allowed n ms0 P L op m ∧ ms = m :: ms0 := by
    intro P L
    cases op with
    | eurekas =>
      simp only [eurekasOf, List.mem_flatMap, List.mem_map, Allowed]
      constructor
      · rintro ⟨ri, h1, fs, h2, rfl⟩
        exact ⟨_, ⟨ri.2, ri.1, fs, List.mk_mem_zipIdx_iff_getElem?.1 h1, h2, rfl⟩, rfl⟩
      · rintro ⟨m, ⟨i, r, fs, h1, h2, rfl⟩, rfl⟩
        exact ⟨(r, i), List.mk_mem_zipIdx_iff_getElem?.2 h1, fs, h2, rfl⟩
    | foldsSeq =>
      simp only [foldsOf, driveFolds, List.mem_map, List.mem_flatMap, Allowed]
      constructor
      · rintro ⟨s, ⟨Dd, h1, h2⟩, rfl⟩
        split at h2
        · cases h2
        · rename_i ix hix
          obtain ⟨rj, h3, h4⟩ := List.mem_flatMap.1 h2
          split at h4
          · cases h4
          · rename_i S hS
            rw [List.mem_singleton.1 h4]
            exact ⟨_, ⟨Dd.2, Dd.1, ix, rj, S, List.mk_mem_zipIdx_iff_getElem?.1 h1, hix, h3, hS, rfl⟩, rfl⟩
      · rintro ⟨m, ⟨d, D, ix, rj, S, h1, h2, h3, h4, rfl⟩, rfl⟩
        refine ⟨⟨.fold (n.g.fuel ms0) (n.g.mark ms0) d rj.1 S rj.2 :: ms0, [], []⟩, ⟨(D, d), List.mk_mem_zipIdx_iff_getElem?.2 h1, ?_⟩, rfl⟩
        simp only [h2]
        refine List.mem_flatMap.2 ⟨rj, h3, ?_⟩
        simp [h4]
    | unfoldsSeq first =>
      simp only [unfoldsOf, List.mem_flatMap, Allowed]
      constructor
      · rintro ⟨ri, h1, xj, h2, h3⟩
        split at h3
        · cases h3
        · rename_i x hx
          split at h3
          · rename_i hin
            obtain ⟨d, h4, rfl⟩ := List.mem_map.1 h3
            obtain ⟨D, h5, h6, h7⟩ := (mem_unfoldsBy (zipIdx_desc _)).1 h4
            have hb : ri.1.body[xj.2]? = some (.sub x) := by rw [← hx]; exact List.mk_mem_zipIdx_iff_getElem?.1 h2
            exact ⟨_, ⟨ri.2, xj.2, ri.1, x, d, D, List.mk_mem_zipIdx_iff_getElem?.1 h1, hb, hin, List.mk_mem_zipIdx_iff_getElem?.1 (List.mem_reverse.1 h5), h6,
              fun hf d' D' hd hD' => h7 hf d' D' hd (List.mem_reverse.2 (List.mk_mem_zipIdx_iff_getElem?.2 hD')), rfl⟩, rfl⟩
          · cases h3
      · rintro ⟨m, ⟨i, j, r, x, d, D, h1, h2, h3, h4, h5, h6, rfl⟩, rfl⟩
        refine ⟨(r, i), List.mk_mem_zipIdx_iff_getElem?.2 h1, (.sub x, j), List.mk_mem_zipIdx_iff_getElem?.2 h2, ?_⟩
        simp only [h3, if_true]
        refine List.mem_map.2 ⟨d, (mem_unfoldsBy (zipIdx_desc _)).2 ⟨D, List.mem_reverse.2 (List.mk_mem_zipIdx_iff_getElem?.2 h4), h5, fun hf d' D' hd hD' =>
          h6 hf d' D' hd (List.mk_mem_zipIdx_iff_getElem?.1 (List.mem_reverse.1 hD'))⟩, rfl⟩
  constructor
  · intro h
    split at h
    · rename_i P L hr
      obtain ⟨m, h1, h2⟩ := (key P L).1 h
      exact ⟨P, L, m, hr, h1, h2⟩
    · cases h
  · rintro ⟨P, L, m, hr, h1, h2⟩
    rw [hr]
    exact (key P L).2 ⟨m, h1, h2⟩

end

/-! ### Unfolding alone -/

section
variable [OSemi W] [DecidableEq W] {S' : Type} [DecidableEq S']

/-- the rules have positive measures -/
def Positive (R : Rec W) : Prop := ∀ x ∈ R.m, 1 ≤ x.lo

theorem anyO_false {α : Type} {g : α → Option Bool} : ∀ {l : List α}, (∀ x ∈ l, g x = some false) → anyO g l = some false
  | [], _ => rfl
  | x :: l, h => by
    rw [anyO, h x (by simp), anyO_false fun y hy => h y (List.mem_cons_of_mem _ hy)]
    rfl

theorem violates_not {f k : Nat} {P D : Rec W} (h : ∀ s ∈ D.lineage, s.1 ∈ P.lineage.map Prod.fst) : violates f k P D = some false := by
  unfold violates
  exact anyO_false fun s hs => by rw [if_pos (h s hs)]

theorem minSize_nonneg' (ops : Ops) (b : List (Lit W)) : 0 ≤ minSize ops b := Measure.minSize_nonneg ops b

theorem unfoldM_pos {f : Nat} {ops : Ops} {inf : W} {k id : Nat} {P D R : Rec W} {i j : Nat} (hl : ∀ s ∈ D.lineage, s.1 ∈ P.lineage.map Prod.fst)
    (oP : P.ok = true) (oD : D.ok = true) (pP : Positive P) (pD : Positive D) (h : unfoldM f ops inf k id P D i j = some R) :
    R.ok = true ∧ Positive R ∧ R.lineage = (id, []) :: P.lineage := by
  unfold unfoldM at h
  split at h
  · simp only [violates_not hl] at h
    split at h
    · rename_i r mi ds hr hm hds
      split at h
      · cases h
      · rename_i rest hrest
        cases h
        have hmi := pP mi (List.mem_of_getElem? hm)
        have hd : ∀ x ∈ ds, 1 ≤ x.lo := by
          intro x hx
          have : some x ∈ ds.map some := List.mem_map_of_mem hx
          rw [← allSome_eq_some.1 hds] at this
          obtain ⟨t, _, ht⟩ := List.mem_map.1 this
          obtain ⟨n, _, hn⟩ := Option.bind_eq_some_iff.1 ht
          exact pD x (List.mem_of_getElem? hn)
        have hr' : ∀ x ∈ rest, 1 ≤ x.lo := by
          intro x hx
          have : some x ∈ rest.map some := List.mem_map_of_mem hx
          unfold Measure.copied at hrest
          rw [← allSome_eq_some.1 hrest] at this
          obtain ⟨t, _, ht⟩ := List.mem_map.1 this
          exact pP x (List.mem_of_getElem? ht)
        refine ⟨?_, ?_, rfl⟩
        · simp only [Rec.ok, List.all_append, Bool.and_eq_true]
          refine ⟨⟨oP, oD⟩, ?_⟩
          rw [List.all_eq_true]
          intro b hb
          obtain ⟨x, hx, rfl⟩ := List.mem_map.1 hb
          have h1 := hd x hx
          have h2 := minSize_nonneg' ops (r.body.take j)
          have h3 := minSize_nonneg' ops (r.body.drop (j + 1))
          refine decide_eq_true ?_
          simp only [Ival.add]
          omega
        · intro x hx
          rcases List.mem_append.1 hx with hx | hx
          · exact hr' x hx
          · obtain ⟨y, hy, rfl⟩ := List.mem_map.1 hx
            have := hd y hy
            simp only [Ival.add]
            omega
    · cases h
  · cases h

/-- the original program or a sequence of unfoldings of it, each by a program of the lineage -/
def Unfolds : List (Move W) → Prop
  | [] => True
  | .unfold .. :: ms => Unfolds ms
  | .unfoldBy .. :: ms => Unfolds ms
  | _ :: _ => False

/-- the constraints hold and the measures are positive, and the lineages are part of the lineage of the newest program -/
def AllPos (L : List (Stage W)) : Prop :=
  ∀ P ∈ L.head?, ∀ s ∈ L, s.R.ok = true ∧ Positive s.R ∧ ∀ t ∈ s.R.lineage, t.1 ∈ P.R.lineage.map Prod.fst

theorem allPos_first {e : Env W S'} {root : Prog W} {c0 : Nat} {a : Nat → Int} (ha : ∀ i, 0 < a i) : AllPos [first e a root c0] := by
  intro P hP s hs
  cases hP
  rw [List.mem_singleton.1 hs]
  refine ⟨?_, ?_, fun t ht => List.mem_map_of_mem ht⟩
  · simp only [first, addRef, Rec.ok, Measure.newVars, List.all_eq_true]
    intro b hb
    obtain ⟨x, hx, hb⟩ := List.mem_flatMap.1 hb
    obtain ⟨i, _, rfl⟩ := List.mem_map.1 hx
    unfold Measure.newVar at hb
    split at hb
    · simp only [List.mem_singleton] at hb
      rw [hb]; simpa using ha _
    · cases hb
  · intro x hx
    simp only [first, addRef, Measure.newVars] at hx
    obtain ⟨y, hy, rfl⟩ := List.mem_map.1 hx
    obtain ⟨i, _, rfl⟩ := List.mem_map.1 hy
    unfold Measure.newVar
    split
    · have := ha (0 + i); simp only; omega
    · simp

theorem allPos_unfold {e : Env W S'} {L0 : List (Stage W)} (ih : AllPos L0) {Q : Stage W} {L' : List (Stage W)} (e1 : L0 = Q :: L') {D : Stage W} (hD : D ∈ L0) {R : Rec W} {f k i j : Nat}
    (h1 : unfoldM f e.ops e.inf k L0.length Q.R D.R i j = some R) (d : Option (List Nat)) (bs : List (WRule W)) (c : Nat) : AllPos (⟨R, d, bs, c⟩ :: L0) := by
  have ih := ih Q (by rw [e1]; rfl)
  obtain ⟨o1, o2, o3⟩ := ih Q (by rw [e1]; simp)
  obtain ⟨d1, d2, d3⟩ := ih D hD
  obtain ⟨r1, r2, r3⟩ := unfoldM_pos d3 o1 d1 o2 d2 h1
  intro P hP s hs
  simp only [List.head?_cons, Option.mem_def, Option.some.injEq] at hP
  subst hP
  rcases List.mem_cons.1 hs with rfl | hs
  · exact ⟨r1, r2, fun t ht => List.mem_map_of_mem ht⟩
  · obtain ⟨s1, s2, s3⟩ := ih s hs
    refine ⟨s1, s2, fun t ht => ?_⟩
    show t.1 ∈ R.lineage.map Prod.fst
    rw [r3]
    exact List.mem_cons_of_mem _ (s3 t ht)

theorem unfolds_inv {e : Env W S'} {root : Prog W} {c0 : Nat} {a : Nat → Int} (ha : ∀ i, 0 < a i) (ms : List (Move W)) (hu : Unfolds ms) :
    ∀ L, SearchMoves.run e a root c0 ms = some L → AllPos L := by
  induction ms with
  | nil => intro L h; cases h; exact allPos_first ha
  | cons m ms ih =>
    intro L h
    have hu' : Unfolds ms := by cases m <;> first | exact hu | exact hu.elim
    rw [SearchMoves.run] at h
    cases h0 : SearchMoves.run e a root c0 ms with
    | none => rw [h0] at h; cases h
    | some L0 =>
      rw [h0] at h
      replace h : SearchMoves.step e a L0 m = some L := h
      have ih := ih hu' L0 h0
      cases m with
      | unfold f k i j =>
        obtain ⟨Q, L', r, q, D, R, e1, _, _, hD, h1, h2⟩ := step_unfold h
        rw [h2]
        refine allPos_unfold ih e1 ?_ h1 _ _ _
        rcases firstAppears_mem hD with h3 | ⟨h3, _⟩
        · rw [h3, e1]; simp
        · exact List.mem_reverse.1 h3
      | unfoldBy f k d i j =>
        obtain ⟨Q, L', r, q, D, R, e1, _, _, hD, _, h1, h2⟩ := step_unfoldBy h
        rw [h2]
        exact allPos_unfold ih e1 (List.mem_of_getElem? hD) h1 _ _ _
      | hook => exact hu.elim
      | fold => exact hu.elim

theorem collect_unfolds (e : Env W S') (root : Prog W) (c : Nat) (n : Gens W) : ∀ {ops : List Op}, (∀ op ∈ ops, ∃ b, op = .unfoldsSeq b) → ∀ {C : Coll W}, (∀ ms ∈ C, Unfolds ms) →
    ∀ ms ∈ ops.foldl (fun C op => op.apply e root c n C) C, Unfolds ms
  | [], _, C, hC, ms, hm => hC ms hm
  | op :: ops, ho, C, hC, ms, hm => by
    refine collect_unfolds e root c n (fun o h => ho o (List.mem_cons_of_mem _ h)) (fun ms hm => ?_) ms hm
    rcases (C88_members e root c n op C ms).1 hm with h | ⟨ms0, h1, P, L, m, _, h2, rfl⟩
    · exact hC ms h
    · obtain ⟨b, rfl⟩ := ho op (by simp)
      obtain ⟨i, j, r, x, d, D, _, _, _, _, _, _, rfl⟩ := h2
      exact hC ms0 h1

/-- **C88 (checked collections).**  Every program of a collection that passes the check of the measure has the values of the original program. -/
theorem C88_sound {e : Env W S'} {root : Prog W} {c0 : Nat} (hS : Setup e root c0) (n : Gens W) (ops : List Op) {ms : List (Move W)}
    (hm : ms ∈ (collect e root c0 n ops).filter (check e root c0)) (hF : ∀ a, AllFit e a root c0 ms) : Agrees e.ops root c0 (rulesOf e root c0 ms) := by
  obtain ⟨-, hc⟩ := List.mem_filter.1 hm
  cases ms with
  | nil => exact fun d _ x _ w => Iff.rfl
  | cons m ms =>
    simp only [check, decide_eq_true_eq] at hc
    obtain ⟨a, P, L, h, ok⟩ := hc
    rw [C85_rules e a root c0 (m :: ms) h]
    exact C85_sound hS (hF a) h ok

/-- **C88 (unfolding needs no check).**  In a collection made by `unfolds_seq` and `unfolds_first` alone the constraints of every program whose measure can be computed hold for all positive
values of the unknowns, and every such program has the values of the original program. -/
theorem C88_unfolds {e : Env W S'} {root : Prog W} {c0 : Nat} (hS : Setup e root c0) (n : Gens W) {ops : List Op} (ho : ∀ op ∈ ops, ∃ b, op = .unfoldsSeq b)
    {ms : List (Move W)} (hm : ms ∈ collect e root c0 n ops) {a : Nat → Int} (ha : ∀ i, 0 < a i) {P : Stage W} {L : List (Stage W)} (h : run e a root c0 ms = some (P :: L)) :
    P.R.ok = true ∧ (AllFit e a root c0 ms → Agrees e.ops root c0 P.R.prog.rules) := by
  have hu := collect_unfolds e root c0 n ho (C := [[]]) (by simp [Unfolds]) ms hm
  have ok := (unfolds_inv ha ms hu _ h P rfl P List.mem_cons_self).1
  exact ⟨ok, fun hF => C85_sound hS hF h ok⟩

end

/-! ### Folding needs the check -/

section Examples
open Measure (pr)
open Unfold (at' ltOps)
open Fold (eqOps foldsBy)
open FoldSearch (proposals)

/-- `goal += b * c.  z += b * c.` -/
def loopP : Prog TV := ⟨[("goal", ["b", "c"]), ("z", ["b", "c"])].map pr, ["b", "c", "d"].map fun s => at' s []⟩

/-- the enumerations of `fold_proposals` and `folds_by` -/
def loopG : Gens TV :=
  ⟨⟨fun r s => decide (r = s), fun _ => [], fun p ds => (((proposals 40 eqOps id id Measure.code true true p ⟨ds, p.inputs⟩ 0).map fun rs => rs.1.map fun r => (r, 0)).getD []),
    fun p d rj => ((foldsBy 40 eqOps id ltOps TV.t 0 p d rj.1 rj.2).join.map Prod.fst), fun p x => p.rules.any fun r => decide (r.head = x), fun _ => 40, fun _ => 0, fun _ => 1⟩, fun _ _ _ => 1⟩

/-- fold `goal` by the rule of `z`, then `z` by the rule of `goal`, both of the original program -/
def loopMs : List (Move TV) := [.fold 40 0 1 (pr ("z", ["goal"])) {1} 0, .fold 40 0 0 (pr ("goal", ["z"])) {0} 0]
def loopOut : List (WRule TV) := [("z", ["goal"]), ("goal", ["z"])].map pr



deriving instance DecidableEq for Move

theorem loop_at (ms : List (Move TV)) {rs : List (WRule TV)} {is : List Tm} {a : Nat → Int}
    (h : ((SearchMoves.run demoE (fun _ => 1) loopP 0 ms).bind List.head?).map (fun P => (P.R.prog.rules, P.R.prog.inputs)) = some (rs, is))
    {L : List (Stage TV)} (hL : SearchMoves.run demoE a loopP 0 ms = some L) {P : Stage TV} {L' : List (Stage TV)} (hP : L = P :: L') :
    P.R.prog.rules = rs ∧ P.R.prog.inputs = is := by
  rcases run_alike demoE a (fun _ => 1) loopP 0 ms with ⟨h1, _⟩ | ⟨L1, M, h1, h2, h3⟩
  · rw [hL] at h1; cases h1
  · rw [hL] at h1
    cases h1
    subst hP
    rw [h2] at h
    cases h3 with
    | cons hQ _ =>
      rw [hQ.R.prog]
      simpa using h

theorem loop_setup : Setup demoE loopP 0 where
  same := demo_setup.same
  order := demo_setup.order
  picks := demo_setup.picks
  inf := demo_setup.inf
  vars := demo_setup.vars
  gen := demo_setup.gen
  rules := fun r hr => by
    obtain ⟨t, ht, rfl⟩ := List.mem_map.1 hr
    refine pr_wf ?_
    simp only [List.mem_cons, List.not_mem_nil, or_false] at ht
    rcases ht with rfl | rfl <;> decide
  fresh := fun n hn g _ h => by
    have : Hook.syms loopP = [.str "goal", .str "b", .str "c", .str "z", .str "b", .str "c"] := by decide
    rw [this] at hn
    subst h
    simp only [List.mem_cons, List.not_mem_nil, or_false] at hn
    rcases hn with h | h | h | h | h | h <;> exact Hook.genName_ne (by decide) h

theorem loop_fit (a : Nat → Int) : AllFit demoE a loopP 0 loopMs := by
  refine ⟨⟨trivial, fun L hL P L' hP => ?_⟩, fun L hL P L' hP => ?_⟩
  · obtain ⟨h1, h2⟩ := loop_at [] (rs := loopP.rules) (is := loopP.inputs) (by decide +kernel) hL hP
    refine ⟨pr_wf (by decide), ⟨_, rfl, ?_⟩, by rw [h1]; decide⟩
    rw [h2]
    exact pr_goal (by decide) (by decide) ⟨_, rfl⟩
  · obtain ⟨h1, h2⟩ := loop_at _ (rs := [("goal", ["z"]), ("z", ["b", "c"])].map pr) (is := loopP.inputs) (by decide +kernel) hL hP
    refine ⟨pr_wf (by decide), ⟨_, rfl, ?_⟩, by rw [h1]; decide⟩
    rw [h2]
    exact pr_goal (by decide) (by decide) ⟨_, rfl⟩

/-- the original program derives `goal`, the program of the two folds does not -/
theorem loop_lost : rounds loopP.rules (Measure.dataOn ["b", "c", "d"]) 3 (Measure.atom "goal") = .t ∧
    ∀ k, rounds loopOut (Measure.dataOn ["b", "c", "d"]) k (Measure.atom "goal") = .f :=
  ⟨(Measure.rounds_chain [("goal", ["b", "c"]), ("z", ["b", "c"])] ["b", "c", "d"] 3 "goal").2 (by decide),
    Measure.rounds_lost (rs := [("z", ["goal"]), ("goal", ["z"])]) (U := ["b", "c", "d"]) (by decide) (by decide) (by decide)⟩

theorem loop_not : ¬ Agrees ltOps loopP 0 loopOut := by
  intro h
  have h1 := (h _ (Measure.data_dataOn ["b", "c", "d"]) (Measure.atom "goal") (by
    rintro ⟨g, _, h⟩
    have h : Hook.genName g = .str "goal" := (Option.some.inj h).symm
    exact Hook.genName_ne (by decide) h) .f).1 (fun k => by rw [loop_lost.2 k]) 3
  rw [loop_lost.1] at h1
  exact TV.noConfusion (h1 rfl)

/-- **C88 (folding needs the check).**  `folds_seq` twice on `goal += b * c.  z += b * c.`, with the proposals and the parts of the rules that the program computes, gives the program
`goal += z.  z += goal.`: the values of `goal` are lost.  The check of the measure would remove it. -/
theorem C88_folds_unchecked : loopMs ∈ collect demoE loopP 0 loopG [.foldsSeq, .foldsSeq] ∧ rulesOf demoE loopP 0 loopMs = loopOut ∧ ¬ Agrees ltOps loopP 0 loopOut ∧
    check demoE loopP 0 loopMs = false := by
  have hr : rulesOf demoE loopP 0 loopMs = loopOut := by decide +kernel
  refine ⟨by decide +kernel, hr, loop_not, ?_⟩
  cases hc : check demoE loopP 0 loopMs with
  | false => rfl
  | true =>
    refine absurd (C88_sound loop_setup loopG [.foldsSeq, .foldsSeq] (List.mem_filter.2 ⟨by decide +kernel, hc⟩) loop_fit) ?_
    rw [hr]
    exact loop_not

/-- what is in the collection after `folds_seq` of that program -/
example : ∀ ms ∈ collect demoE loopP 0 loopG [.foldsSeq], ms = [] ∨ rulesOf demoE loopP 0 ms = [("goal", ["z"]), ("z", ["b", "c"])].map pr ∨
    rulesOf demoE loopP 0 ms = [("z", ["goal"]), ("goal", ["b", "c"])].map pr := by
  decide +kernel

/-- one of the two folds passes the check, and keeps the values -/
example : Agrees ltOps loopP 0 ([("goal", ["z"]), ("z", ["b", "c"])].map pr) := by
  have hr : rulesOf demoE loopP 0 loopMs.tail = [("goal", ["z"]), ("z", ["b", "c"])].map pr := by decide +kernel
  rw [← hr]
  refine C88_sound loop_setup loopG [.foldsSeq] (List.mem_filter.2 ⟨by decide +kernel, ?_⟩) fun a => (loop_fit a).1
  have h : ((SearchMoves.run demoE (fun i => if i = 0 then 2 else 1) loopP 0 loopMs.tail).map fun L => L.map fun P => P.R.ok) = some [true, true] := by decide +kernel
  obtain ⟨L, h1, h2⟩ := Option.map_eq_some_iff.1 h
  simp only [loopMs, List.tail_cons, check, decide_eq_true_eq]
  match L, h1, h2 with
  | P :: L, h1, h2 => exact ⟨_, P, L, h1, (List.cons.inj h2).1⟩

/-- unfold `z` in the rule of `y` -/
def demoU : List (Move TV) := [.unfoldBy 40 0 0 2 0]

example : demoU ∈ collect demoE demoP 0 loopG [.unfoldsSeq true] ∧ (collect demoE demoP 0 loopG [.unfoldsSeq true]).length = 2 := by decide +kernel

/-- it keeps the values -/
example : Agrees ltOps demoP 0 ([("goal", ["b", "c", "d"]), ("z", ["b", "c", "d"]), ("y", ["b", "c", "d"])].map pr) := by
  have h : ((SearchMoves.run demoE (fun _ => 1) demoP 0 demoU).bind List.head?).map (fun P => P.R.prog.rules) =
    some ([("goal", ["b", "c", "d"]), ("z", ["b", "c", "d"]), ("y", ["b", "c", "d"])].map pr) := by decide +kernel
  obtain ⟨P, h1, h2⟩ := Option.map_eq_some_iff.1 h
  obtain ⟨L, h3, h4⟩ := Option.bind_eq_some_iff.1 h1
  rw [← h2]
  match L, h3, h4 with
  | P' :: L, h3, h4 =>
    cases h4
    refine (C88_unfolds demo_setup loopG (ops := [.unfoldsSeq true]) (by simp) (by decide +kernel) (fun _ => by norm_num) h3).2 ⟨trivial, fun L hL P L' r q hP hr hq => ?_⟩
    obtain ⟨h1, h2⟩ := demo_at [] (rs := demoP.rules) (is := demoP.inputs) (by decide +kernel) hL hP
    rw [h1] at hr
    cases hr
    cases hq
    refine ⟨?_, by rw [h1]; decide⟩
    rw [h2]
    exact pr_goal (by decide) (by decide) ⟨_, rfl⟩

end Examples

end Collect
end Verif
