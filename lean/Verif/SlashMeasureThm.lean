/-
Property C84: the measure of the slash transformation.
-/
import Verif.SlashMeasure
import Verif.DSlashThm
import Verif.MeasureWit

set_option linter.unusedSectionVars false
set_option linter.unusedSimpArgs false

namespace Verif
open Tm Heap Sem
open Solver (noHeap)

namespace SlashMeasure
open Slash (Kind Res Setup Inst slashT sitem)
open Measure (Ival Rec)
open Linearize (Sigs isBuiltin)
open DSlash (Der Fit GI wt wtL up kd)
variable {W : Type}

mutual
/-- specification: the sum of `a` over the rule numbers of a derivation -/
def total (a : Nat → Int) : DUnfold.Tree W → Int
  | .const _ => 0
  | .bi _ => 0
  | .node i _ ks => a i + totalL a ks
def totalL (a : Nat → Int) : List (DUnfold.Tree W) → Int
  | [] => 0
  | d :: ds => total a d + totalL a ds
end

mutual
theorem total_wt (a : Nat → Int) : ∀ d : DUnfold.Tree W, wt (fun _ => (1 : Multiplicative Int)) (fun n => Multiplicative.ofAdd (a n)) d = Multiplicative.ofAdd (total a d)
  | .const _ => rfl
  | .bi _ => rfl
  | .node i _ ks => by rw [wt, totalL_wt a ks, total, ofAdd_add]
theorem totalL_wt (a : Nat → Int) : ∀ ds : List (DUnfold.Tree W), wtL (fun _ => (1 : Multiplicative Int)) (fun n => Multiplicative.ofAdd (a n)) ds = Multiplicative.ofAdd (totalL a ds)
  | [] => rfl
  | d :: ds => by rw [wtL, total_wt a d, totalL_wt a ds, totalL, ofAdd_add]
end

/-- the measures as functions -/
def lo (m : List Ival) (i : Nat) : Int := ((m[i]?).getD ⟨0, 0⟩).lo
def hi (m : List Ival) (i : Nat) : Int := ((m[i]?).getD ⟨0, 0⟩).hi

section
variable {B : Tm → Prop} {rules : List (WRule W)} {m : List Ival}

theorem dmeasL_of {ks : List (DUnfold.Tree W)} (h : ∀ d ∈ ks, dmeas m d = some ⟨total (lo m) d, total (hi m) d⟩) (y : Ival) :
    dmeasL m y ks = some ⟨y.lo + totalL (lo m) ks, y.hi + totalL (hi m) ks⟩ := by
  induction ks generalizing y with
  | nil => simp [dmeasL, totalL]
  | cons d ks ih =>
    rw [dmeasL, h d (by simp)]
    simp only
    rw [ih fun d hd => h d (List.mem_cons_of_mem _ hd)]
    simp only [Ival.add, totalL, Int.add_assoc]

/-- on derivations of the program the measure is defined, and is the interval of the two sums -/
theorem dmeas_der (hm : m.length = rules.length) {d : DUnfold.Tree W} (hd : Der B rules d) : dmeas m d = some ⟨total (lo m) d, total (hi m) d⟩ := by
  induction hd with
  | const k => simp [dmeas, total]
  | bi t _ => simp [dmeas, total]
  | node n r x b ks hr _ _ _ ih =>
    obtain ⟨hn, _⟩ := List.getElem?_eq_some_iff.1 hr
    have : m[n]? = some m[n] := List.getElem?_eq_getElem (by omega)
    rw [dmeas, this, dmeasL_of ih]
    simp only [Ival.add, total, lo, hi, this, Option.getD_some, Int.zero_add]

end

variable [CSemi W] {B : Tm → Prop} {E : DSlash.Cfg W} {sig : Sigs} {fv cv : Nat → Nat} {rules : List (WRule W)} {inputs : List Tm} {X0 : Tm} {k : Nat} {f0 : Nat} {lam : Const}

theorem ruleM_get {res : Res W} {m m' : List Ival} (h : allSome (res.rules.map fun R => ruleM m R.2) = some m') (i : Nat) :
    m'[i]? = (res.rules[i]?).bind fun R => ruleM m R.2 := by
  have := congrArg (·[i]?) (allSome_eq_some.1 h)
  simp only [List.getElem?_map] at this
  cases hR : res.rules[i]? with
  | none =>
    rw [hR, Option.map_none] at this
    cases hm : m'[i]? with
    | none => rfl
    | some x => rw [hm] at this; simp at this
  | some R =>
    rw [hR, Option.map_some] at this
    cases hm : m'[i]? with
    | none => rw [hm] at this; simp at this
    | some x => rw [hm, Option.map_some, Option.some.injEq] at this; rw [Option.bind_some, this]

theorem up_of {res : Res W} {m m' : List Ival} (h : allSome (res.rules.map fun R => ruleM m R.2) = some m') (g : Ival → Int) (g0 : g ⟨0, 0⟩ = 0) (i : Nat) :
    up res (fun n => Multiplicative.ofAdd (g ((m[n]?).getD ⟨0, 0⟩))) i = Multiplicative.ofAdd (g ((m'[i]?).getD ⟨0, 0⟩)) := by
  rw [ruleM_get h, up, kd]
  cases res.rules[i]? with
  | none => simp [g0]
  | some R =>
    simp only [Option.map_some, Option.bind_some]
    cases R.2 <;> simp [ruleM, g0]

theorem total_up {res : Res W} {m m' : List Ival} (h : allSome (res.rules.map fun R => ruleM m R.2) = some m') (g : Ival → Int) (g0 : g ⟨0, 0⟩ = 0) {d d' : DUnfold.Tree W}
    (hw : ∀ (M : Type) [CommMonoid M] (v : W → M) (a : Nat → M), wt v (up res a) d' = wt v a d) :
    total (fun n => g ((m'[n]?).getD ⟨0, 0⟩)) d' = total (fun n => g ((m[n]?).getD ⟨0, 0⟩)) d := by
  have := hw (Multiplicative Int) (fun _ => 1) fun n => Multiplicative.ofAdd (g ((m[n]?).getD ⟨0, 0⟩))
  rw [funext (up_of h g g0), total_wt, total_wt] at this
  exact Multiplicative.ofAdd.injective this

/-- **C84** (every rule gets a measure). -/
theorem C84_defined (S : Setup sig fv cv rules inputs E.pos k) (e : Slash.slash false f0 sig fv cv lam rules inputs E.pos X0 k = some E.res)
    {P : Rec W} (hm : P.m.length = rules.length) (id : Nat) : ∃ R, slashM id P E.res = some R ∧ R.m.length = R.prog.rules.length ∧ R.safe = P.safe := by
  have M := DSlash.made S e
  have : ∀ R ∈ E.res.rules, ∃ x, ruleM P.m R.2 = some x := by
    intro R hR
    have get : ∀ {n : Nat} {r : WRule W}, rules[n]? = some r → ∃ x, P.m[n]? = some x := fun {n r} h =>
      ⟨_, List.getElem?_eq_getElem (by have := (List.getElem?_eq_some_iff.1 h).1; omega)⟩
    have hs := M.src R hR
    unfold DSlash.Src at hs
    cases hk : R.2 with
    | base => exact ⟨_, rfl⟩
    | o n => rw [hk] at hs; obtain ⟨r, hr, _⟩ := hs; exact get hr
    | ss n => rw [hk] at hs; obtain ⟨r, j, q, hr, _⟩ := hs; exact get hr
    | oo n => rw [hk] at hs; obtain ⟨r, j, q, hr, _⟩ := hs; exact get hr
    | ro => exact ⟨_, rfl⟩
    | rso => exact ⟨_, rfl⟩
  have : ∃ m', allSome (E.res.rules.map fun R => ruleM P.m R.2) = some m' := by
    generalize E.res.rules = l at this
    induction l with
    | nil => exact ⟨[], rfl⟩
    | cons R l ih =>
      obtain ⟨x, hx⟩ := this R (by simp)
      obtain ⟨m', hm'⟩ := ih fun R hR => this R (List.mem_cons_of_mem _ hR)
      exact ⟨x :: m', by rw [allSome_eq_some] at hm' ⊢; simp only [List.map_cons, hx, hm']⟩
  obtain ⟨m', hm'⟩ := this
  have hs : slashM id P E.res = some ⟨⟨E.res.rules.map Prod.fst, P.prog.inputs⟩, (id, []) :: P.lineage, m', P.safe⟩ := by rw [slashM, hm']
  refine ⟨_, hs, ?_, rfl⟩
  have := congrArg List.length (allSome_eq_some.1 hm')
  simpa using this.symm

/-- **C84** (mapping a derivation keeps its measure).  The measure of the image of a derivation, with the measures that the slashed program gets, is that of the derivation. -/
theorem C84_keeps (S : Setup sig fv cv rules inputs E.pos k) (e : Slash.slash false f0 sig fv cv lam rules inputs E.pos X0 k = some E.res)
    (hI : ∀ i ∈ inputs, hfn i ≠ some E.res.c.sl ∧ hfn i ≠ some E.res.c.ot) (ho : ∀ l, (E.ord l).Perm l) (hg : ∀ t, B t → vars t = ∅) (hb : ∀ t, B t → isBuiltin sig t = true)
    {P R : Rec W} (hm : P.m.length = rules.length) {id : Nat} (hR : slashM id P E.res = some R)
    {d d' : DUnfold.Tree W} (hd : Der B rules d) (ht : E.tr d = some d') : dmeas R.m d' = dmeas P.m d ∧ dmeas P.m d ≠ none := by
  obtain ⟨v1, _, v3⟩ := DSlash.C83_valid S e hI ho hg hb hd ht
  unfold slashM at hR
  cases hm' : allSome (E.res.rules.map fun R => ruleM P.m R.2) with
  | none => rw [hm'] at hR; simp at hR
  | some m' =>
    rw [hm'] at hR
    simp only [Option.some.injEq] at hR
    subst hR
    have hl : m'.length = (E.res.rules.map Prod.fst).length := by
      have := congrArg List.length (allSome_eq_some.1 hm')
      simpa using this.symm
    refine ⟨?_, by rw [dmeas_der hm hd]; simp⟩
    rw [dmeas_der hm hd]
    refine (dmeas_der hl v1).trans ?_
    rw [Option.some.injEq, Ival.mk.injEq]
    exact ⟨total_up hm' Ival.lo rfl v3, total_up hm' Ival.hi rfl v3⟩

/-- **C84** (slashed items of size zero).  Whatever the measures, `z/z` has a derivation of measure zero, for each instance `z` of `x`; `min_size` counts every item as one. -/
theorem C84_zero (S : Setup sig fv cv rules inputs E.pos k) (e : Slash.slash false f0 sig fv cv lam rules inputs E.pos X0 k = some E.res)
    {P R : Rec W} {id : Nat} (hR : slashM id P E.res = some R) {z : GTm} (hz : Inst E.res.c.X z) :
    ∃ i, Der B (E.res.rules.map Prod.fst) (.node i (slashT E.res.c.sl z.1 z.1) []) ∧ dmeas R.m (.node i (slashT E.res.c.sl z.1 z.1) [] : DUnfold.Tree W) = some ⟨0, 0⟩ := by
  have M := DSlash.made S e
  obtain ⟨t, ht⟩ := M.base
  obtain ⟨i, hi⟩ := List.getElem?_of_mem ht
  have hs : DSlash.Same t ⟨slashT E.res.c.sl E.res.c.X E.res.c.X, []⟩ := M.src _ ht
  obtain ⟨φ, hφ⟩ := hz
  refine ⟨i, .node i t (sitem E.res.c.sl z z) [] [] (by rw [List.getElem?_map, hi]; rfl) ((hs _ _).2 ⟨φ, by rw [Slash.gsub_slashT, hφ], rfl⟩) .nil (by simp), ?_⟩
  unfold slashM at hR
  cases hm' : allSome (E.res.rules.map fun R => ruleM P.m R.2) with
  | none => rw [hm'] at hR; simp at hR
  | some m' =>
    rw [hm'] at hR
    simp only [Option.some.injEq] at hR
    subst hR
    rw [dmeas]
    have := ruleM_get hm' i
    rw [hi] at this
    simp only [this, dmeasL, Option.bind_some, ruleM, Ival.add]
    rfl

section
open DSlash

/-- the hypotheses hold of the program and the derivation of C83; the derivation has measure 8, as has its image -/
example : ∃ res d' R, demoRes demoP demoPos (Unfold.at' "f" [.var 8]) = some res ∧ (demoE demoPos res).tr demoDer = some d' ∧
    slashM 1 (Measure.addRef false (fun _ => 1) 0 ⟨demoP, []⟩) res = some R ∧ dmeas R.m d' = dmeas (Measure.addRef false (fun _ => 1) 0 (⟨demoP, []⟩ : Unfold.Prog TV)).m demoDer := by
  have h := demo_tr
  unfold demoTr at h
  cases e : demoRes demoP demoPos (Unfold.at' "f" [.var 8]) with
  | none => rw [e] at h; simp at h
  | some res =>
    rw [e, Option.bind_some] at h
    cases e' : (demoE demoPos res).tr demoDer with
    | none => rw [e'] at h; simp at h
    | some d' =>
      have hl : (Measure.addRef false (fun _ => 1) 0 (⟨demoP, []⟩ : Unfold.Prog TV)).m.length = demoP.length := by decide +kernel
      obtain ⟨R, hR, _⟩ := C84_defined (E := demoE demoPos res) demo_setup e hl 1
      exact ⟨res, d', R, rfl, e', hR, (C84_keeps (B := fun _ => False) (E := demoE demoPos res) demo_setup e (by simp) (fun _ => .refl _) (by simp) (by simp) hl hR demo_der e').1⟩

end

/-! ### A fold accepted after slashing although it loses values -/

section
open Measure
open Unfold (at')

/-- `a += l * x.  x += u.` -/
def rootR : List (String × List String) := [("a", ["l", "x"]), ("x", ["u"])]
def rootP : Unfold.Prog TV := ⟨rootR.map pr, ["l", "u"].map fun s => at' s []⟩
def rootPos : Nat → Option Nat := fun i => if i = 0 then some 1 else none
def rootS : Option (Res TV) := Slash.slash false 40 Slash.nmSig (fun i => 2 * i) (fun i => 2 * i + 1) (.str "lam") rootP.rules rootP.inputs rootPos (at' "x" []) 10

/-- the slashed program with its measure; `sym = false` is the unit measure, `sym = true` the symbolic one -/
def slashed (sym : Bool) : Option (Rec TV) := rootS.bind fun res => slashM 1 (addRef sym (fun _ => 1) 0 rootP) res
/-- `unfold(1, 1)` of it: `a/x += l * x/x` becomes `a/x += l` -/
def slashedU (sym : Bool) : Option (Rec TV) := (slashed sym).bind fun P => unfoldM 30 Unfold.ltOps TV.t 50 2 P P 1 1

def atx (t : String) : Tm := at' "/" [at' t [], at' "x" []]
def oth : Tm := at' "$other" [at' "x" []]
def nmx : Tm := at' "$not_matches" [.con (.str "lam"), at' "x" []]

/-- `a/x += a/x * x/x`, in place of `a/x += l * x/x` -/
def badR : WRule TV := ⟨atx "a", [.sub (atx "a"), .sub (atx "x")]⟩
/-- the rule `a/x += l * x/x` of the slashed program folded by the rule `a/x += l` of the unfolded one -/
def folded (sym : Bool) : Option (Rec TV) := (slashedU sym).bind fun D => (slashed sym).bind fun P =>
  foldM 30 Fold.eqOps id Unfold.ltOps TV.t code List.head? 60 3 P D badR {1} 0

def badRules : List (WRule TV) := [badR, ⟨atx "x", []⟩, ⟨oth, [.sub (at' "u" [])]⟩, ⟨at' "a" [], [.sub oth, .sub (atx "a")]⟩,
  ⟨at' "x" [], [.sub oth, .sub nmx]⟩, ⟨at' "x" [], [.sub oth, .sub (atx "x")]⟩]

theorem bad_lost (n : Nat) : rounds badRules (dataOn ["l", "u"]) n (atom "a") = .f := by
  have hb : ∀ z : GTm, (z = atom "a" ∨ z = gsub (fun _ => g0) (atx "a")) → dataOn ["l", "u"] z = 0 := by
    rintro z (rfl | rfl)
    · cases h : dataOn ["l", "u"] (atom "a") with
      | f => rfl
      | t => exact absurd ((dataOn_atom _ _).1 h) (by decide)
    · have hb : Unfold.bval (W := TV) Unfold.ltOps (gsub (fun _ => g0) (atx "a")).1 = none := by simp [atx, gsub, Unfold.bval, Unfold.ltOps]
      simp only [dataOn, hb, Option.getD_none]
      rw [if_neg]
      rintro ⟨s, _, e⟩
      have := congrArg Subtype.val e
      simp [atom, atx, gsub] at this
  refine Slash.rounds_zero_of (fun z => z = atom "a" ∨ z = gsub (fun _ => g0) (atx "a")) hb ?_ n _ (Or.inl rfl)
  intro r hr θ hz
  simp only [badRules, List.mem_cons, List.not_mem_nil, or_false] at hr
  have hg : gsub θ (atx "a") = gsub (fun _ => g0) (atx "a") := by apply Subtype.ext; simp [atx, gsub]
  have no : ∀ {z : GTm}, z = atom "a" ∨ z = gsub (fun _ => g0) (atx "a") → z.1 = at' "a" [] ∨ z.1 = atx "a" := by
    rintro z (rfl | rfl)
    · left; simp [atom, gsub]
    · right; simp [atx, gsub]
  rcases hr with rfl | rfl | rfl | rfl | rfl | rfl
  · exact ⟨atx "a", by simp [badR], Or.inr hg⟩
  · have := no hz; simp [atx, gsub] at this
  · have := no hz; simp [atx, oth, gsub] at this
  · exact ⟨atx "a", by simp, Or.inr hg⟩
  · have := no hz; simp [atx, gsub] at this
  · have := no hz; simp [atx, gsub] at this

/-- **C84** (the fold condition is not enough after slashing).  Both measures accept the fold of `a/x += l * x/x` into `a/x += a/x * x/x`, as `x/x` counts for one; the result has all its checks true,
but `a`, true in the program before, has no value any more. -/
theorem C84_unsound (sym : Bool) : ((folded sym).map fun R => (R.prog.rules, R.safe.all id)) = some (badRules, true) ∧
    rounds rootP.rules (dataOn ["l", "u"]) 3 (atom "a") = .t ∧ ∀ n, rounds badRules (dataOn ["l", "u"]) n (atom "a") = .f := by
  refine ⟨?_, (rounds_chain rootR ["l", "u"] 3 "a").2 (by decide), bad_lost⟩
  cases sym <;> decide +kernel

end

end SlashMeasure
end Verif
