/-
Property C49: a sequence that the measure check accepts, and sequences it accepts although values change.
-/
import Verif.MeasureThm

set_option linter.unusedSectionVars false
set_option linter.unusedSimpArgs false

namespace Verif
open Tm Heap Sem
open Solver (noHeap forEach good_noHeap respects_noHeap)

namespace Measure
open Unfold (Prog US Ops unfold Pre Data Below UserHead at' ltOps bval)
open Fold (fold minus eqOps eqOps_faithful)

/-! ### Propositional programs over truth values -/

/-- the item `s` -/
def atom (s : String) : GTm := gsub (fun _ => g0) (at' s [])
/-- the rule `r.1 += r.2[0] * r.2[1] * ...` -/
def pr (r : String × List String) : WRule TV := ⟨at' r.1 [], r.2.map fun b => .sub (at' b [])⟩
open Classical in
/-- data that gives the items in `ins` the value true -/
noncomputable def dataOn (ins : List String) : GTm → TV := fun x => (bval ltOps x.1).getD (if ∃ s ∈ ins, atom s = x then 1 else 0)

theorem gsub_at (θ : Nat → GTm) (s : String) : gsub θ (at' s []) = atom s := by apply Subtype.ext; simp [atom, gsub]
theorem atom_inj {s s' : String} : atom s = atom s' ↔ s = s' := by
  refine ⟨fun h => ?_, fun h => h ▸ rfl⟩
  have := congrArg Subtype.val h
  simpa [atom, gsub] using this

theorem data_dataOn (ins : List String) : Data ltOps (ins.map fun s => at' s []) (dataOn ins) := by
  classical
  intro x
  cases h : bval (W := TV) ltOps x.1 with
  | some b => simp only [dataOn, h, Option.getD_some]
  | none =>
    intro hx
    simp only [dataOn, h, Option.getD_none]
    rw [if_neg]
    rintro ⟨s, hs, e⟩
    exact hx (at' s []) (List.mem_map.2 ⟨s, hs, rfl⟩) (fun _ => g0) e

theorem dataOn_atom (ins : List String) (s : String) : dataOn ins (atom s) = .t ↔ s ∈ ins := by
  classical
  have hb : bval (W := TV) ltOps (atom s).1 = none := by simp [atom, gsub, bval]
  simp only [dataOn, hb, Option.getD_none]
  by_cases h : ∃ s' ∈ ins, atom s' = atom s
  · rw [if_pos h]
    obtain ⟨s', h1, h2⟩ := h
    rw [atom_inj] at h2
    subst h2
    exact ⟨fun _ => h1, fun _ => rfl⟩
  · rw [if_neg h]
    exact ⟨fun h => (nomatch h), fun hs => absurd ⟨s, hs, rfl⟩ h⟩

theorem contrib_pr (r : String × List String) (v : GTm → TV) (s : String) :
    contrib (pr r) v (atom s) = .t ↔ r.1 = s ∧ ∀ b ∈ r.2, v (atom b) = .t := by
  classical
  have hV : rvars (pr r) = ∅ := by
    ext n
    simp only [rvars, pr, Finset.mem_union, mem_bodyVars, Finset.notMem_empty, iff_false, not_or]
    refine ⟨by simp, ?_⟩
    rintro ⟨l, hl, hn⟩
    obtain ⟨b, _, rfl⟩ := List.mem_map.1 hl
    simp [litVars] at hn
  rw [contrib_eq hV]
  have : Unique (Asg ∅) := ⟨⟨fun n => absurd n.2 (Finset.notMem_empty _)⟩, fun a => funext fun n => absurd n.2 (Finset.notMem_empty _)⟩
  rw [isum_unique]
  have hb : ∀ (θ : Nat → GTm) (bs : List String), bv v θ (bs.map fun b => (.sub (at' b []) : Lit TV)) = .t ↔ ∀ b ∈ bs, v (atom b) = .t := by
    intro θ bs
    induction bs with
    | nil => simp only [List.map_nil, bv_nil]; exact ⟨fun _ b hb => by simp at hb, fun _ => rfl⟩
    | cons b bs ih =>
      rw [List.map_cons, bv_cons, TV.mul_iff, ih]
      simp only [lv, gsub_at, List.forall_mem_cons]
  simp only [pr, gsub_at, atom_inj]
  split
  · rename_i h; rw [hb]; exact ⟨fun h' => ⟨h, h'⟩, fun h' => h'.2⟩
  · rename_i h; exact ⟨fun h' => (nomatch h'), fun h' => absurd h'.1 h⟩

/-- forward chaining -/
def chain (rs : List (String × List String)) (ins : List String) : Nat → List String
  | 0 => []
  | n + 1 => ins ++ (rs.filter fun r => r.2.all (· ∈ chain rs ins n)).map Prod.fst

theorem rounds_chain (rs : List (String × List String)) (ins : List String) (n : Nat) (s : String) :
    rounds (rs.map pr) (dataOn ins) n (atom s) = .t ↔ s ∈ chain rs ins n := by
  induction n generalizing s with
  | zero => exact ⟨fun h => (nomatch h), fun h => by simp [chain] at h⟩
  | succ n ih =>
    show dataOn ins (atom s) + T (rs.map pr) _ (atom s) = .t ↔ _
    rw [TV.add_iff, dataOn_atom, chain, List.mem_append]
    refine or_congr Iff.rfl ?_
    have : ∀ l : List (String × List String), T (l.map pr) (rounds (rs.map pr) (dataOn ins) n) (atom s) = .t ↔
        ∃ r ∈ l, r.1 = s ∧ ∀ b ∈ r.2, b ∈ chain rs ins n := by
      intro l
      induction l with
      | nil => exact ⟨fun h => (nomatch h), fun ⟨_, h, _⟩ => by simp at h⟩
      | cons r l ihl =>
        rw [List.map_cons, T_cons, TV.add_iff, ihl, contrib_pr, List.exists_mem_cons_iff]
        simp only [ih]
    rw [this]
    simp only [List.mem_map, List.mem_filter, List.all_eq_true, decide_eq_true_eq]
    constructor
    · rintro ⟨r, h1, h2, h3⟩; exact ⟨r, ⟨h1, h3⟩, h2⟩
    · rintro ⟨r, ⟨h1, h3⟩, h2⟩; exact ⟨r, h1, h2, h3⟩

/-- items outside a set that the rules do not leave get no value -/
theorem rounds_lost {rs : List (String × List String)} {ins U : List String} (h1 : ∀ s ∈ ins, s ∈ U)
    (h2 : ∀ r ∈ rs, (∀ b ∈ r.2, b ∈ U) → r.1 ∈ U) {s : String} (hs : s ∉ U) (n : Nat) : rounds (rs.map pr) (dataOn ins) n (atom s) = .f := by
  have : ∀ n, ∀ s ∈ chain rs ins n, s ∈ U := by
    intro n
    induction n with
    | zero => intro s hs; simp [chain] at hs
    | succ n ih =>
      intro s hs
      rw [chain, List.mem_append] at hs
      rcases hs with hs | hs
      · exact h1 s hs
      · obtain ⟨r, hr, rfl⟩ := List.mem_map.1 hs
        simp only [List.mem_filter, List.all_eq_true, decide_eq_true_eq] at hr
        exact h2 r hr.1 fun b hb => ih b (hr.2 b hb)
  cases h : rounds (rs.map pr) (dataOn ins) n (atom s) with
  | f => rfl
  | t => exact absurd (this n s ((rounds_chain rs ins n s).1 h)) hs

/-- values as constants -/
def code : TV → Const
  | .t => .str "t"
  | .f => .str "f"

/-! ### A sequence that is accepted -/
section Examples

def rootP : Prog TV := ⟨[("goal", ["a", "b"]), ("f", ["a"])].map pr, ["a", "b"].map fun s => at' s []⟩
def foldR : WRule TV := pr ("goal", ["f", "b"])
/-- all unknowns are one -/
def unitE : Env TV Unit := ⟨eqOps, id, ltOps, code, List.head?, false, fun _ => 0, fun i => (rootP.rules[i]?).getD foldR, 2⟩
def rootM : Rec TV := addRef false (fun _ => 0) 0 rootP

theorem infty_tv : (infty : TV) = .t := by rw [infty, show (isum fun _ : GTm => (1 : TV)) = .t from (TV.any_iff _).2 ⟨g0, rfl⟩]

theorem pr_wf (r : String × List String) (h : r.1 ≠ "<" := by decide) (h' : r.1 ≠ "=" := by decide) : WF ltOps (pr r) where
  head := ⟨_, _, rfl, by simp [ltOps, h], by simpa using h'⟩
  user := rfl
  body := by
    intro t ht
    simp only [pr, List.mem_map, Lit.sub.injEq] at ht
    obtain ⟨b, _, rfl⟩ := ht
    exact ⟨_, _, rfl⟩

theorem unitE_fair : unitE.Fair where
  same := eqOps_faithful
  order := fun l => .refl l
  picks := fun l t h => List.mem_of_head? h
  rules := by
    intro i hi
    have hi : i < 2 := hi
    match i, hi with
    | 0, _ => exact pr_wf ("goal", ["a", "b"])
    | 1, _ => exact pr_wf ("f", ["a"])

theorem foldR_pre : Pre ltOps 0 (fold rootP foldR {0}) rootP 0 0 foldR (at' "f" []) where
  rule := rfl
  goal := rfl
  below := by intro n hn; simp [rvars, bodyVars, litVars, foldR, pr] at hn
  heads := by
    intro s hs
    simp only [rootP, List.map_cons, List.map_nil, List.mem_cons, List.not_mem_nil, or_false] at hs
    rcases hs with rfl | rfl
    · exact (pr_wf ("goal", ["a", "b"])).head
    · exact (pr_wf ("f", ["a"])).head
  kind := ⟨_, _, rfl, by decide, by decide⟩
  notInput := by
    intro t ht θ φ h
    simp only [rootP, List.map_cons, List.map_nil, List.mem_cons, List.not_mem_nil, or_false] at ht
    have := congrArg Subtype.val h
    rcases ht with rfl | rfl <;> simp [gsub] at this

/-- folding `goal += a * b` by `f += a` is accepted by the unit measure: `C49_sound` applies -/
example : ∃ R sc, unitE.Reach rootP R sc ∧ R.ok = true ∧ sc.Perm (List.range unitE.n) ∧ R.prog.rules = [foldR, pr ("f", ["a"])] := by
  have hroot : unitE.Reach rootP rootM (List.range 2) := .root 0 (by decide) fun i r h => by
    show (rootP.rules[i]?).getD foldR = r
    rw [h]; rfl
  have hs : (foldM 20 eqOps id ltOps TV.t code List.head? 0 1 rootM rootM foldR {0} 0).map
      (fun R => R.ok && decide (R.prog.rules = [foldR, pr ("f", ["a"])])) = some true := by decide +kernel
  rw [Option.map_eq_some_iff] at hs
  obtain ⟨R, h1, h2⟩ := hs
  rw [Bool.and_eq_true, decide_eq_true_eq] at h2
  refine ⟨R, _, .fold (S := {0}) (j := 0) (f := 20) (k := 0) (id := 1) hroot hroot (by rw [infty_tv]; exact h1) foldR_pre ⟨_, _, rfl, by decide, by decide⟩
    (by decide +kernel) (pr_wf _) (by decide +kernel) (fun i hi h => absurd (List.mem_range.2 hi) h), h2.1, .refl _, h2.2⟩

end Examples

/-! ### Sequences accepted although values change -/

/-- `root.define("f += a")` -/
def goalP : Prog TV := ⟨[pr ("goal", ["a", "b"])], ["a", "b"].map fun s => at' s []⟩
def goalM : Rec TV := addRef false (fun _ => 0) 0 goalP
def goalD : Option (Rec TV) := defineM false (fun _ => 0) 1 1 goalM [pr ("f", ["a"])]

/-- **C49 (definitions from elsewhere).**  With `defs = root.define("f += a")`, folding the rule `goal += a * b` of `root` itself into
`goal += f * b` is accepted, although the folded program has no rule for `f`: the value of `goal` is lost. -/
theorem C49_foreign_definition :
    (goalD.bind fun D => foldM 20 eqOps id ltOps TV.t code List.head? 0 2 goalM D foldR {0} 0).map (fun R => (R.ok, R.prog.rules)) =
      some (true, [("goal", ["f", "b"])].map pr) ∧
    rounds goalP.rules (dataOn ["a", "b"]) 2 (atom "goal") = .t ∧
    ∀ n, rounds ([("goal", ["f", "b"])].map pr) (dataOn ["a", "b"]) n (atom "goal") = .f :=
  ⟨by decide +kernel, (rounds_chain [("goal", ["a", "b"])] _ _ _).2 (by decide), fun n => rounds_lost (U := ["a", "b"]) (by decide) (by decide) (by decide) n⟩

def extraP : Prog TV := ⟨[pr ("goal", ["a", "c"])], ["a", "b", "c"].map fun s => at' s []⟩
def extraM : Rec TV := addRef false (fun _ => 0) 0 extraP
def extraD : Option (Rec TV) := defineM false (fun _ => 0) 1 1 extraM [pr ("f", ["a"])]
/-- ... and a later `define("f += b")` -/
def extraD2 : Option (Rec TV) := extraD.bind fun D => defineM false (fun _ => 0) 2 2 D [pr ("f", ["b"])]

/-- **C49 (definitions that are not complete).**  If the parent was made from `defs` by adding `f += b`, folding `goal += a * c`
by the earlier `defs`, where `f` is only `a`, is accepted: `goal` gets a value it did not have. -/
theorem C49_incomplete_definition :
    (extraD.bind fun D => extraD2.bind fun P => foldM 20 eqOps id ltOps TV.t code List.head? 0 3 P D (pr ("goal", ["f", "c"])) {0} 0).map (fun R => (R.ok, R.prog.rules)) =
      some (true, [("goal", ["f", "c"]), ("f", ["a"]), ("f", ["b"])].map pr) ∧
    (extraD2.map fun P => P.prog.rules) = some ([("goal", ["a", "c"]), ("f", ["a"]), ("f", ["b"])].map pr) ∧
    rounds ([("goal", ["f", "c"]), ("f", ["a"]), ("f", ["b"])].map pr) (dataOn ["b", "c"]) 3 (atom "goal") = .t ∧
    ∀ n, rounds ([("goal", ["a", "c"]), ("f", ["a"]), ("f", ["b"])].map pr) (dataOn ["b", "c"]) n (atom "goal") = .f :=
  ⟨by decide +kernel, by decide +kernel, (rounds_chain _ _ _ _).2 (by decide), fun n => rounds_lost (U := ["b", "c", "f"]) (by decide) (by decide) (by decide) n⟩

def dupRules : List (String × List String) := [("a", ["c"]), ("a", ["c"]), ("c", ["b"]), ("z", ["c"]), ("w", ["c"])]
/-- the second of two equal rules has size 2, all others have size 1 -/
def dupA (i : Nat) : Int := if i = 1 then 2 else 1
def dupM : Rec TV := addRef true dupA 0 ⟨dupRules.map pr, [at' "b" []]⟩
/-- `p.unfold(i, 0, defs=root)` -/
def dupU (id : Nat) (P : Rec TV) (i : Nat) : Option (Rec TV) := unfoldM 20 ltOps TV.t 0 id P dupM i 0
def dupPar : Option (Rec TV) := ((dupU 1 dupM 1).bind fun P => dupU 2 P 0).bind fun P => dupU 3 P 1
def dupDef : Option (Rec TV) := ((dupU 4 dupM 4).bind fun P => dupU 5 P 0).bind fun P => dupU 6 P 0

theorem minus_23 {α : Type} (l : List α) : minus l {2, 3} = (l.eraseIdx 3).eraseIdx 2 := by
  have : ({2, 3} : Finset Nat).sort (· ≥ ·) = [3, 2] := by
    refine List.Perm.eq_of_pairwise' (Finset.pairwise_sort _ _) (by decide) ?_
    exact (List.perm_ext_iff_of_nodup (Finset.sort_nodup _ _) (by decide)).2 fun n => by simp; omega
  rw [minus, this]; rfl

/-- **C49 (equal rules).**  The measure of a copied rule is looked up by `rules.index`, which finds the first equal rule.  In a program
with two equal rules `a += c`, unfolding along two routes gives the rules `a += b` the sizes of different copies, and
folding them into `a += a` is accepted by the symbolic measure: the value of `a` is lost.  All programs involved are different, so
none of the measures comes from the cache. -/
theorem C49_equal_rules :
    (dupPar.map fun P => P.prog.rules) = some ([("c", ["b"]), ("w", ["c"]), ("a", ["b"]), ("a", ["b"]), ("z", ["b"])].map pr) ∧
    (dupPar.bind fun P => dupDef.bind fun D => foldM 20 eqOps id ltOps TV.t code List.head? 0 7 P D (pr ("a", ["a"])) {2, 3} 0).map (fun R => (R.ok, R.prog.rules)) =
      some (true, [("a", ["a"]), ("c", ["b"]), ("w", ["c"]), ("z", ["b"])].map pr) ∧
    rounds (dupRules.map pr) (dataOn ["b"]) 3 (atom "a") = .t ∧
    ∀ n, rounds ([("a", ["a"]), ("c", ["b"]), ("w", ["c"]), ("z", ["b"])].map pr) (dataOn ["b"]) n (atom "a") = .f :=
  ⟨by decide +kernel, by simp only [foldM, fold, minus_23]; decide +kernel, (rounds_chain _ _ _ _).2 (by decide), fun n => rounds_lost (U := ["b", "c", "w", "z"]) (by decide) (by decide) (by decide) n⟩

def eqP : Prog TV := ⟨[⟨at' "goal" [], [.sub (at' "=" [.con (.str "x"), .con (.str "x")])]⟩], []⟩

/-- **C49 (builtins).**  Unfolding a builtin works, but its measure cannot be computed: `m_defs.m[None]` raises. -/
theorem C49_builtin_raises : (unfold 20 ltOps TV.t 0 eqP eqP 0 0).map (fun r => (r.1, r.2.2)) = some ([⟨at' "goal" [], [.val 1]⟩], .done) ∧
    unfoldM 20 ltOps TV.t 0 1 (addRef false (fun _ => 0) 0 eqP) (addRef false (fun _ => 0) 0 eqP) 0 0 = none :=
  ⟨by decide +kernel, by
    have : (unfoldM 20 ltOps TV.t 0 1 (addRef false (fun _ => 0) 0 eqP) (addRef false (fun _ => 0) 0 eqP) 0 0).isNone = true := by decide +kernel
    simpa using this⟩

end Measure
end Verif
