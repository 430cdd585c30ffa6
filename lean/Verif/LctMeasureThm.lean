/-
Property C87: the measure of the left-corner transformation (`LCT.compute_measure`, `/repo/dyna/transform/lct.py` 182-201), which is the same as that of
`Slash` (SlashMeasure.lean), on the rules that the constructor of `LCT` makes.
-/
import Verif.SlashMeasureThm
import Verif.DLctThm

set_option linter.unusedSectionVars false
set_option linter.unusedSimpArgs false

namespace Verif
open Tm Heap Sem
open Solver (noHeap)

namespace LctMeasure
open Slash (Kind Res Setup Inst slashT sitem)
open Measure (Ival Rec addRef)
open Linearize (Sigs isBuiltin)
open DSlash (Der GI Cfg)
open DLct (tr Apart)
open SlashMeasure
variable {W : Type}

section
variable [CSemi W] {B : Tm → Prop} {E : Cfg W} {sig : Sigs} {fv cv : Nat → Nat} {rules : List (WRule W)} {inputs : List Tm} {X0 : Tm} {k : Nat} {f0 : Nat} {lam : Const}

/-- **C87** (every rule gets a measure). -/
theorem C87_defined (S : Setup sig fv cv rules inputs E.pos k) (e : Slash.slash true f0 sig fv cv lam rules inputs E.pos X0 k = some E.res)
    {P : Rec W} (hm : P.m.length = rules.length) (id : Nat) : ∃ R, slashM id P E.res = some R ∧ R.m.length = R.prog.rules.length ∧ R.safe = P.safe := by
  have M := DLct.madeL S e
  have : ∀ R ∈ E.res.rules, ∃ x, ruleM P.m R.2 = some x := by
    intro R hR
    have get : ∀ {n : Nat} {r : WRule W}, rules[n]? = some r → ∃ x, P.m[n]? = some x := fun {n r} h =>
      ⟨_, List.getElem?_eq_getElem (by have := (List.getElem?_eq_some_iff.1 h).1; omega)⟩
    have hs := M.src R hR
    unfold DLct.SrcL at hs
    cases hk : R.2 with
    | base => exact ⟨_, rfl⟩
    | o n => rw [hk] at hs; obtain ⟨r, hr, _⟩ := hs; exact get hr
    | ss n => rw [hk] at hs; obtain ⟨r, j, q, Y, hr, _⟩ := hs; exact get hr
    | oo n => rw [hk] at hs; obtain ⟨r, j, q, hr, _⟩ := hs; exact get hr
    | ro => exact ⟨_, rfl⟩
    | rso => exact ⟨_, rfl⟩
  have : ∃ m', allSome (E.res.rules.map fun R => ruleM P.m R.2) = some m' := by
    generalize E.res.rules = l at this
    induction l with
    | nil => exact ⟨[], rfl⟩
    | cons R l ih =>
      obtain ⟨x, hx⟩ := this R (by simp)
      obtain ⟨m', hm'⟩ := ih fun R hR => this R (List.mem_cons_of_mem _ hR)
      exact ⟨x :: m', by rw [allSome_eq_some] at hm' ⊢; simp only [List.map_cons, hx, hm']⟩
  obtain ⟨m', hm'⟩ := this
  have hs : slashM id P E.res = some ⟨⟨E.res.rules.map Prod.fst, P.prog.inputs⟩, (id, []) :: P.lineage, m', P.safe⟩ := by rw [slashM, hm']
  refine ⟨_, hs, ?_, rfl⟩
  have := congrArg List.length (allSome_eq_some.1 hm')
  simpa using this.symm

/-- **C87** (mapping a derivation keeps its measure), if no two rules have a common ground instance. -/
theorem C87_keeps (S : Setup sig fv cv rules inputs E.pos k) (e : Slash.slash true f0 sig fv cv lam rules inputs E.pos X0 k = some E.res)
    (hI : ∀ i ∈ inputs, hfn i ≠ some E.res.c.sl ∧ hfn i ≠ some E.res.c.ot) (ho : ∀ l, (E.ord l).Perm l) (hg : ∀ t, B t → vars t = ∅) (hb : ∀ t, B t → isBuiltin sig t = true)
    (hc : Function.Injective E.code) (hA : Apart rules)
    {P R : Rec W} (hm : P.m.length = rules.length) {id : Nat} (hR : slashM id P E.res = some R)
    {d d' : DUnfold.Tree W} (hd : Der B rules d) (ht : tr E d = some d') : dmeas R.m d' = dmeas P.m d ∧ dmeas P.m d ≠ none := by
  have v1 := (DLct.C86_valid S e hI ho hg hb hc hd ht).1
  have v3 := (DLct.C86_round_trip S e hI ho hg hb hc hA hd ht).2
  unfold slashM at hR
  cases hm' : allSome (E.res.rules.map fun R => ruleM P.m R.2) with
  | none => rw [hm'] at hR; simp at hR
  | some m' =>
    rw [hm'] at hR
    simp only [Option.some.injEq] at hR
    subst hR
    have hl : m'.length = (E.res.rules.map Prod.fst).length := by
      have := congrArg List.length (allSome_eq_some.1 hm')
      simpa using this.symm
    refine ⟨?_, by rw [dmeas_der hm hd]; simp⟩
    rw [dmeas_der hm hd]
    refine (dmeas_der hl v1).trans ?_
    rw [Option.some.injEq, Ival.mk.injEq]
    exact ⟨total_up hm' Ival.lo rfl v3, total_up hm' Ival.hi rfl v3⟩

/-- **C87** (slashed items of size zero).  Whatever the measures, `z/z` has a derivation of measure zero, for each ground term `z` at all; `min_size` counts every item as one. -/
theorem C87_zero (S : Setup sig fv cv rules inputs E.pos k) (e : Slash.slash true f0 sig fv cv lam rules inputs E.pos X0 k = some E.res)
    {P R : Rec W} {id : Nat} (hR : slashM id P E.res = some R) (z : GTm) :
    ∃ i, Der B (E.res.rules.map Prod.fst) (.node i (slashT E.res.c.sl z.1 z.1) []) ∧ dmeas R.m (.node i (slashT E.res.c.sl z.1 z.1) [] : DUnfold.Tree W) = some ⟨0, 0⟩ := by
  have M := DLct.madeL S e
  obtain ⟨t, ht, hs⟩ := M.base
  refine ⟨0, .node 0 t (sitem E.res.c.sl z z) [] [] (by rw [List.getElem?_map, ht]; rfl) (hs z) .nil (by simp), ?_⟩
  unfold slashM at hR
  cases hm' : allSome (E.res.rules.map fun R => ruleM P.m R.2) with
  | none => rw [hm'] at hR; simp at hR
  | some m' =>
    rw [hm'] at hR
    simp only [Option.some.injEq] at hR
    subst hR
    rw [dmeas]
    have := ruleM_get hm' 0
    rw [ht] at this
    simp only [this, dmeasL, Option.bind_some, ruleM, Ival.add]
    rfl

end

/-! ### Rules with common instances -/

section
open DLct

/-- the hypotheses of `C87_keeps` hold of the program and the derivation of C86 -/
example : ∃ res d' R, demoRes (demoP.take 7) demoPos (Unfold.at' "f" [.var 8]) = some res ∧ tr (demoE demoPos res) (demoDer 3) = some d' ∧
    slashM 1 (addRef false (fun _ => 1) 0 ⟨demoP.take 7, []⟩) res = some R ∧ dmeas R.m d' = some ⟨6, 6⟩ := by
  have h := demo_img7
  unfold demoTr at h
  cases e : demoRes (demoP.take 7) demoPos (Unfold.at' "f" [.var 8]) with
  | none => rw [e] at h; simp at h
  | some res =>
    rw [e, Option.bind_some] at h
    obtain ⟨d', e'⟩ := Option.isSome_iff_exists.1 h
    have hl : (addRef false (fun _ => 1) 0 (⟨demoP.take 7, []⟩ : Unfold.Prog TV)).m.length = (demoP.take 7).length := by decide +kernel
    obtain ⟨R, hR, _⟩ := C87_defined (E := demoE demoPos res) demo_setup7 e hl 1
    refine ⟨res, d', R, rfl, e', hR, ?_⟩
    rw [(C87_keeps (B := fun _ => False) (E := demoE demoPos res) demo_setup7 e (by simp) (fun _ => .refl _) (by simp) (by simp) (demo_code res) demo_apart hl hR demo_der7 e').1]
    decide +kernel

/-- the symbolic measure of the program of C86, with the value 2 for the unknown of the last rule and 1 for the others -/
def skewM : Rec TV := addRef true (fun i => if i = 7 then 2 else 1) 0 ⟨demoP, []⟩

/-- **C87** (not kept for rules with common instances).  `LCT.transform` takes the first rule that covers an item and its children, also if it made the derivation by another; their measures can differ. -/
theorem C87_not_kept : ∃ (rules : List (WRule TV)) (E : Cfg TV) (fv cv : Nat → Nat) (x : Tm) (k f0 : Nat) (P R : Rec TV) (d d' : DUnfold.Tree TV),
    Setup Slash.nmSig fv cv rules [] E.pos k ∧ Slash.slash true f0 Slash.nmSig fv cv (.str "lam") rules [] E.pos x k = some E.res ∧ Function.Injective E.code ∧
    P.m.length = rules.length ∧ slashM 1 P E.res = some R ∧ Der (fun _ => False) rules d ∧ tr E d = some d' ∧ dmeas R.m d' ≠ dmeas P.m d := by
  obtain ⟨res, e, e1, e2⟩ := demo_tr
  have hl : skewM.m.length = demoP.length := by decide
  obtain ⟨R, hR, _⟩ := C87_defined (E := demoE demoPos res) demo_setup e hl 1
  by_cases h : dmeas R.m demoImg = dmeas skewM.m (demoDer 3)
  · refine ⟨demoP, demoE demoPos res, _, _, _, _, _, skewM, R, demoDer 7, demoImg, demo_setup, e, demo_code res, hl, hR, demo_der (.inr rfl), e2, ?_⟩
    rw [h]; decide +kernel
  · exact ⟨demoP, demoE demoPos res, _, _, _, _, _, skewM, R, demoDer 3, demoImg, demo_setup, e, demo_code res, hl, hR, demo_der (.inl rfl), e1, h⟩

end

/-! ### A fold accepted after the left-corner transformation although it loses values -/

mutual
/-- the variables of a term, in order -/
def varsOf : Tm → List Nat
  | .var n => [n]
  | .con _ => []
  | .app l => varsOfL l
def varsOfL : List Tm → List Nat
  | [] => []
  | t :: l => varsOf t ++ varsOfL l
end

mutual
theorem mem_varsOf {n : Nat} : ∀ {t : Tm}, n ∈ vars t → n ∈ varsOf t
  | .var m, h => by simpa [varsOf] using h
  | .con _, h => by simp at h
  | .app l, h => by rw [varsOf]; exact mem_varsOfL (by simpa using h)
theorem mem_varsOfL {n : Nat} : ∀ {l : List Tm}, n ∈ varsL l → n ∈ varsOfL l
  | [], h => by simp at h
  | t :: l, h => by
    rw [varsOfL, List.mem_append]
    rcases Finset.mem_union.1 (by simpa using h : n ∈ vars t ∪ varsL l) with h | h
    · exact .inl (mem_varsOf h)
    · exact .inr (mem_varsOfL h)
end

def litVarsOf : Lit TV → List Nat
  | .val _ => []
  | .sub t => varsOf t
def ruleVarsOf (r : WRule TV) : List Nat := varsOf r.head ++ r.body.flatMap litVarsOf

theorem mem_ruleVarsOf {r : WRule TV} {n : Nat} (h : n ∈ rvars r) : n ∈ ruleVarsOf r := by
  rw [ruleVarsOf, List.mem_append]
  rcases Finset.mem_union.1 h with h | h
  · exact .inl (mem_varsOf h)
  · right
    rw [mem_bodyVars] at h
    obtain ⟨l, hl, hn⟩ := h
    rw [List.mem_flatMap]
    refine ⟨l, hl, ?_⟩
    cases l with
    | val _ => simp [litVars] at hn
    | sub t => exact mem_varsOf hn

/-- the rule with its variables numbered from the left -/
def canon (r : WRule TV) : WRule TV := renRule (fun n => (ruleVarsOf r).idxOf n) r
/-- comparison of rules up to the names of variables (and not up to the order of subgoals) -/
def canonOps : RuleOps (WRule TV) Unit := ⟨fun r s => decide (canon r = canon s), fun _ => (), fun _ => 0, fun _ => 0⟩

theorem canon_variant (r : WRule TV) : Fold.WVariant r (canon r) := by
  refine ⟨_, ?_, rfl, .refl _⟩
  intro a ha b hb h
  exact (List.idxOf_inj (mem_ruleVarsOf ha)).1 h

theorem canonOps_faithful : Fold.Faithful canonOps :=
  ⟨⟨fun r => by simp [canonOps], fun r s h => by simp [canonOps] at *; exact h.symm,
    fun r s t h h' => by simp [canonOps] at *; exact h.trans h', fun _ _ _ => rfl⟩, fun r s h => by
    simp only [canonOps, decide_eq_true_eq] at h
    have := canon_variant s
    rw [← h] at this
    exact (canon_variant r).trans this.symm⟩

section
open Measure (unfoldM foldM code dataOn atom rounds_chain)
open Unfold (at')

/-- the program `a += l * x.  x += u.` (C84), with the left corner `x` of its first rule -/
def rootL : Option (Res TV) := Slash.slash true 40 Slash.nmSig (fun i => 2 * i) (fun i => 2 * i + 1) (.str "lam") SlashMeasure.rootP.rules SlashMeasure.rootP.inputs SlashMeasure.rootPos (at' "x" []) 10
/-- the transformed program with its measure; `sym = false` is the unit measure, `sym = true` the symbolic one -/
def lctM (sym : Bool) : Option (Rec TV) := rootL.bind fun res => slashM 1 (addRef sym (fun _ => 1) 0 SlashMeasure.rootP) res
/-- `unfold(1, 1)` of it: `Y/x += l * Y/a` becomes `a/x += l` -/
def lctU (sym : Bool) : Option (Rec TV) := (lctM sym).bind fun P => unfoldM 30 Unfold.ltOps TV.t 50 2 P P 1 1

def over (s t : Tm) : Tm := at' "/" [s, t]
/-- `Y/x += a/x * Y/a`, in place of `Y/x += l * Y/a` -/
def badL : WRule TV := ⟨over (.var 24) (at' "x" []), [.sub (atx "a"), .sub (over (.var 24) (at' "a" []))]⟩
/-- the rule `Y/x += l * Y/a` of the transformed program folded by the rule `a/x += l` of the unfolded one -/
def lctF (sym : Bool) : Option (Rec TV) := (lctU sym).bind fun D => (lctM sym).bind fun P =>
  foldM 30 canonOps id Unfold.ltOps TV.t code List.head? 60 3 P D badL {1} 0

def badLs : List (WRule TV) := [badL, ⟨over (.var 22) (.var 22), []⟩, ⟨oth, [.sub (at' "u" [])]⟩, ⟨at' "a" [], [.sub oth, .sub (atx "a")]⟩,
  ⟨at' "x" [], [.sub oth, .sub nmx]⟩, ⟨at' "x" [], [.sub oth, .sub (atx "x")]⟩]

theorem badLs_lost (n : Nat) : rounds badLs (dataOn ["l", "u"]) n (atom "a") = .f := by
  have hb : ∀ z : GTm, (z = atom "a" ∨ z = gsub (fun _ => g0) (atx "a")) → dataOn ["l", "u"] z = 0 := by
    rintro z (rfl | rfl)
    · cases h : dataOn ["l", "u"] (atom "a") with
      | f => rfl
      | t => exact absurd ((Measure.dataOn_atom _ _).1 h) (by decide)
    · have hb : Unfold.bval (W := TV) Unfold.ltOps (gsub (fun _ => g0) (atx "a")).1 = none := by simp [atx, gsub, Unfold.bval, Unfold.ltOps]
      simp only [dataOn, hb, Option.getD_none]
      rw [if_neg]
      rintro ⟨s, _, e⟩
      have := congrArg Subtype.val e
      simp [atom, atx, gsub] at this
  refine Slash.rounds_zero_of (fun z => z = atom "a" ∨ z = gsub (fun _ => g0) (atx "a")) hb ?_ n _ (Or.inl rfl)
  intro r hr θ hz
  simp only [badLs, List.mem_cons, List.not_mem_nil, or_false] at hr
  have hg : gsub θ (atx "a") = gsub (fun _ => g0) (atx "a") := by apply Subtype.ext; simp [atx, gsub]
  have no : ∀ {z : GTm}, z = atom "a" ∨ z = gsub (fun _ => g0) (atx "a") → z.1 = at' "a" [] ∨ z.1 = atx "a" := by
    rintro z (rfl | rfl)
    · left; simp [atom, gsub]
    · right; simp [atx, gsub]
  rcases hr with rfl | rfl | rfl | rfl | rfl | rfl
  · exact ⟨atx "a", by simp [badL], Or.inr hg⟩
  · have := no hz
    simp [atx, over, gsub] at this
    obtain ⟨h1, h2⟩ := this
    rw [h1] at h2; simp at h2
  · have := no hz; simp [atx, oth, gsub] at this
  · exact ⟨atx "a", by simp, Or.inr hg⟩
  · have := no hz; simp [atx, gsub] at this
  · have := no hz; simp [atx, gsub] at this

/-- **C87** (the fold condition is not enough after the left-corner transformation).  Both measures accept the fold of `Y/x += l * Y/a` into `Y/x += a/x * Y/a`, as `a/a` counts for one;
the result has all its checks true, but `a`, true in the program before, has no value any more. -/
theorem C87_unsound (sym : Bool) : ((lctF sym).map fun R => (R.prog.rules, R.safe.all id)) = some (badLs, true) ∧
    rounds SlashMeasure.rootP.rules (dataOn ["l", "u"]) 3 (atom "a") = .t ∧ ∀ n, rounds badLs (dataOn ["l", "u"]) n (atom "a") = .f := by
  refine ⟨?_, (rounds_chain SlashMeasure.rootR ["l", "u"] 3 "a").2 (by decide), badLs_lost⟩
  cases sym <;> decide +kernel

end

end LctMeasure
end Verif
