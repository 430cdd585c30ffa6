/-
Property C90: all slash and left-corner transformations of a collection.
-/
import Verif.SlashAll
import Verif.SlashThm
import Mathlib.Tactic.Ring

set_option linter.unusedSectionVars false
set_option linter.unusedSimpArgs false

namespace Verif
open Tm Heap Sem

namespace SlashAll
open Linearize (Sigs)
open Slash (Res slash Setup DataOK NewItem Inst Apart)
open Unfold (Prog)
variable {W : Type}

/-- specification: for each rule no position, or the position of one of its subgoals -/
def Choice (rules : List (WRule W)) (v : List (Option Nat)) : Prop :=
  v.length = rules.length ∧ ∀ (i : Nat) (r : WRule W) (j : Nat), rules[i]? = some r → v[i]? = some (some j) → j < r.body.length

theorem mem_positions : ∀ (rules : List (WRule W)) (v : List (Option Nat)), v ∈ positions rules ↔ Choice rules v
  | [], v => by
    simp only [positions, List.mem_singleton, Choice, List.length_nil]
    exact ⟨fun h => by subst h; simp, fun h => List.length_eq_zero_iff.1 h.1⟩
  | r :: rs, v => by
    simp only [positions, List.mem_flatMap, List.mem_map]
    constructor
    · rintro ⟨j, hj, u, hu, rfl⟩
      obtain ⟨h1, h2⟩ := (mem_positions rs u).1 hu
      refine ⟨by simp [h1], fun i r' j' hr hv => ?_⟩
      cases i with
      | zero =>
        simp only [List.getElem?_cons_zero, Option.some.injEq] at hr hv
        subst hr hv
        simpa using hj
      | succ i => exact h2 i r' j' (by simpa using hr) (by simpa using hv)
    · rintro ⟨h1, h2⟩
      cases v with
      | nil => simp at h1
      | cons j u =>
        refine ⟨j, ?_, u, (mem_positions rs u).2 ⟨by simpa using h1, fun i r' j' hr hv => h2 (i + 1) r' j' (by simpa using hr) (by simpa using hv)⟩, rfl⟩
        cases j with
        | none => simp
        | some j => simpa using h2 0 r j rfl rfl

theorem positions_length : ∀ (rules : List (WRule W)), (positions rules).length = (rules.map fun r => r.body.length + 1).prod
  | [] => rfl
  | r :: rs => by
    rw [positions, List.length_flatMap]
    simp only [List.length_map, List.map_const', List.sum_replicate, List.length_cons, List.length_range, List.map_cons, List.prod_cons, positions_length rs, smul_eq_mul, List.sum_cons]
    ring

theorem positions_nodup : ∀ (rules : List (WRule W)), (positions rules).Nodup
  | [] => by simp [positions]
  | r :: rs => by
    have h0 : (none :: (List.range r.body.length).map some).Nodup := by
      rw [List.nodup_cons]
      exact ⟨by simp, List.nodup_range.map (Option.some_injective _)⟩
    rw [positions, List.nodup_flatMap]
    refine ⟨fun j _ => (positions_nodup rs).map fun a b h => (List.cons.inj h).2, h0.imp fun {a b} hab => ?_⟩
    simp only [Function.onFun, List.disjoint_left, List.mem_map]
    rintro _ ⟨u, _, rfl⟩ ⟨u', _, h⟩
    exact hab (List.cons.inj h).1.symm

/-- **C90 (choices).**  Each way to choose at most one subgoal of each rule is tried once; there are as many as the product of the lengths of the bodies plus one. -/
theorem C90_choices (rules : List (WRule W)) : (positions rules).Nodup ∧ (∀ v, v ∈ positions rules ↔ Choice rules v) ∧
    (positions rules).length = (rules.map fun r => r.body.length + 1).prod := ⟨positions_nodup rules, mem_positions rules, positions_length rules⟩

section
variable {lct : Bool} {f : Nat} {sig : Sigs} {fv cv : Nat → Nat} {lam : Const} {ks : Prog W → List (Option Nat) → Nat} {C : List (Prog W)} {out : List (Res W)}

theorem members_aux (h : slashes lct f sig fv cv lam ks C = some out) :
    (∀ res, res ∈ out ↔ ∃ p ∈ C, ∃ v, Choice p.rules v ∧ slash lct f sig fv cv lam p.rules p.inputs (posOf v) (.var 0) (ks p v) = some res) ∧
    out.length = (C.map fun p => (p.rules.map fun r => r.body.length + 1).prod).sum := by
  obtain ⟨oo, ho, rfl⟩ := Option.map_eq_some_iff.1 h
  replace ho := allSome_eq_some.1 ho
  clear h
  induction C generalizing oo with
  | nil =>
    cases oo with
    | nil => simp
    | cons => simp at ho
  | cons p C ih =>
    cases oo with
    | nil => simp at ho
    | cons o oo =>
      simp only [List.map_cons, List.cons.injEq] at ho
      obtain ⟨ih1, ih2⟩ := ih oo ho.2
      have h1 := allSome_eq_some.1 ho.1
      constructor
      · intro res
        rw [List.flatten_cons, List.mem_append, ih1 res]
        have : res ∈ o ↔ ∃ v, Choice p.rules v ∧ slash lct f sig fv cv lam p.rules p.inputs (posOf v) (.var 0) (ks p v) = some res := by
          have : res ∈ o ↔ some res ∈ o.map some := by simp
          rw [this, ← h1, List.mem_map]
          exact exists_congr fun v => and_congr (mem_positions _ _) Iff.rfl
        rw [this]
        simp only [List.mem_cons, exists_eq_or_imp]
      · have := congrArg List.length h1
        simp only [List.length_map] at this
        rw [List.flatten_cons, List.length_append, ih2, ← this, positions_length]
        simp

end

section
variable [OSemi W] {lct : Bool} {f : Nat} {sig : Sigs} {fv cv : Nat → Nat} {lam : Const} {ks : Prog W → List (Option Nat) → Nat} {C : List (Prog W)} {out : List (Res W)}

/-- `pos` gives rule number `i` the choice `v[i]`, and nothing to other numbers -/
def PosIs (v : List (Option Nat)) (pos : Nat → Option Nat) : Prop := (∀ i, ∀ h : i < v.length, pos i = v[i]) ∧ ∀ i, v.length ≤ i → pos i = none

theorem posIs_iff {v : List (Option Nat)} {pos : Nat → Option Nat} : PosIs v pos ↔ pos = posOf v := by
  constructor
  · rintro ⟨h1, h2⟩
    funext i
    by_cases h : i < v.length
    · simp [posOf, h1 i h, List.getElem?_eq_getElem h]
    · simp [posOf, h2 i (by omega), List.getElem?_eq_none (by omega : v.length ≤ i)]
  · rintro rfl
    exact ⟨fun i h => by simp [posOf, List.getElem?_eq_getElem h], fun i h => by simp [posOf, List.getElem?_eq_none h]⟩

/-- **C90 (members).**  The result consists of exactly the transformations of the programs of the collection by these choices, one for each program and choice. -/
theorem C90_members (h : slashes lct f sig fv cv lam ks C = some out) :
    (∀ res, res ∈ out ↔ ∃ p ∈ C, ∃ v, Choice p.rules v ∧ ∃ pos, PosIs v pos ∧ slash lct f sig fv cv lam p.rules p.inputs pos (.var 0) (ks p v) = some res) ∧
    out.length = (C.map fun p => (p.rules.map fun r => r.body.length + 1).prod).sum := by
  simp only [posIs_iff, exists_eq_left]
  exact members_aux h

/-- **C90 (values).**  Every program of the result has, on the items of the program that it was made from, the values of that program. -/
theorem C90_values (h : slashes lct f sig fv cv lam ks C = some out) (hS : ∀ p ∈ C, ∀ v pos, Choice p.rules v → PosIs v pos → Setup sig fv cv p.rules p.inputs pos (ks p v))
    (hb : sig (.str "$not_matches") 2 = true) {res : Res W} (hr : res ∈ out) : ∃ p ∈ C, (∀ i ∈ p.inputs, hfn i ≠ some res.c.sl ∧ hfn i ≠ some res.c.ot) → Apart res.nodes →
      ∀ {d : GTm → W}, DataOK sig p.inputs res.c d → ∀ y, ¬ NewItem res.c y → ∀ b,
        (∀ n, rounds p.rules d n y ≤ b) ↔ ∀ n, rounds (res.rules.map Prod.fst) d n y ≤ b := by
  obtain ⟨p, hp, v, hv, pos, hpos, e⟩ := ((C90_members h).1 res).1 hr
  refine ⟨p, hp, fun hI hap d D y hy b => ?_⟩
  cases lct with
  | false => exact Slash.C54_least (hS p hp v pos hv hpos) e hI hap hb D y hy b
  | true => exact Slash.C55_least (hS p hp v pos hv hpos) e hI hap hb D y hy b

end

section Examples
open Unfold (at')
open Slash (nmSig demoP demoI demo_setup demo_apart)

/-- the transitive closure of C54: two choices for each subgoal of the first rule and none, and two for the second rule -/
example : (positions demoP).length = 6 ∧ [some 1, none] ∈ positions demoP := by decide

theorem demo_choice (v : List (Option Nat)) : Setup nmSig (fun i => 2 * i) (fun i => 2 * i + 1) demoP demoI (posOf v) 10 :=
  { demo_setup with
    unif := by
      intro r hr q hq y h1 h2
      have hq : q = at' "e" [.var 0, .var 1] ∨ q = at' "f" [.var 1] ∨ q = at' "g" [.var 2] := by
        simp only [demoP, Slash.usefulList, List.append_nil, List.mem_append] at hq
        rcases hq with hq | hq
        · generalize posOf v 0 = j at hq
          rcases j with _ | _ | _ | j <;> simp at hq
          · exact .inl hq
          · exact .inr (.inl hq)
        · generalize posOf v (0 + 1) = j at hq
          rcases j with _ | _ | j <;> simp at hq
          exact .inr (.inr hq)
      have hr : ∃ n, r.head = at' "f" [.var n] := by
        simp only [demoP, List.mem_cons, List.not_mem_nil, or_false] at hr
        rcases hr with rfl | rfl <;> exact ⟨_, rfl⟩
      obtain ⟨n, hn⟩ := hr
      rw [hn] at h1 ⊢
      obtain ⟨θ, rfl⟩ := h1
      obtain ⟨φ, h2⟩ := h2
      have h2 := congrArg Subtype.val h2
      rcases hq with rfl | rfl | rfl
      · simp [gsub] at h2
      · exact ⟨fun _ => .var 0, by simp⟩
      · simp [gsub] at h2 }

open Classical in
/-- any facts for `e` and `g` -/
noncomputable def allD (F : GTm → Prop) : GTm → TV := fun z => if F z ∧ ∃ i ∈ demoI, Inst i z then .t else .f

theorem all_data (F : GTm → Prop) {c : Slash.Cfg} (h1 : c.sl = .str "/") (h2 : c.ot = .str "$other") (h4 : c.X = .var 20) : DataOK nmSig demoI c (allD F) := by
  have hin : ∀ z, (∃ i ∈ demoI, Inst i z) → hfn z.1 = some (.str "e") ∨ hfn z.1 = some (.str "g") := by
    rintro z ⟨i, hi, θ, rfl⟩
    simp only [demoI, List.mem_cons, List.not_mem_nil, or_false] at hi
    rcases hi with rfl | rfl
    · exact .inl (by simp [gsub, hfn])
    · exact .inr (by simp [gsub, hfn])
  refine ⟨fun z hz => ?_, fun z hz => ?_, fun z => ?_⟩
  · simp only [allD] at hz
    split at hz
    · next h => exact .inr h.2
    · exact absurd rfl hz
  · simp only [allD]
    refine if_neg ?_
    rintro ⟨_, h⟩
    rcases hin z h with h | h <;> rcases hz with h' | h' <;> rw [h] at h' <;> simp [h1, h2] at h'
  · rw [if_pos (by rw [h4]; exact ⟨fun _ => z, by apply Subtype.ext; simp [gsub]⟩)]
    simp only [allD]
    refine if_neg ?_
    rintro ⟨_, h⟩
    rcases hin _ h with h | h <;> simp [Slash.nmitem, Slash.nmT, hfn] at h

/-- all six programs have the values of the original program, whatever the facts -/
example (lct : Bool) (F : GTm → Prop) : ∃ out, slashes lct 30 nmSig (fun i => 2 * i) (fun i => 2 * i + 1) (.str "lam") (fun _ _ => 10) [⟨demoP, demoI⟩] = some out ∧ out.length = 6 ∧
    ∀ res ∈ out, ∀ y, ¬ NewItem res.c y → ∀ b, (∀ n, rounds demoP (allD F) n y ≤ b) ↔ ∀ n, rounds (res.rules.map Prod.fst) (allD F) n y ≤ b := by
  have h : (slashes lct 30 nmSig (fun i => 2 * i) (fun i => 2 * i + 1) (.str "lam") (fun _ _ => 10) [⟨demoP, demoI⟩]).map
      (fun out => (out.length, out.all fun r => decide ((r.nodes, r.c.sl, r.c.ot, r.c.X) = ([at' "e" [.var 1, .var 3], at' "f" [.var 1], at' "g" [.var 1]], .str "/", .str "$other", .var 20)))) =
      some (6, true) := by
    cases lct <;> decide +kernel
  obtain ⟨out, e, h⟩ := Option.map_eq_some_iff.1 h
  simp only [Prod.mk.injEq, List.all_eq_true, decide_eq_true_eq] at h
  refine ⟨out, e, h.1, fun res hr y hy b => ?_⟩
  obtain ⟨h1, h2, h3, h4⟩ := h.2 res hr
  obtain ⟨p, hp, hv⟩ := C90_values e (fun p hp v pos _ hpos => by rw [List.mem_singleton.1 hp, posIs_iff.1 hpos]; exact demo_choice v) rfl hr
  cases List.mem_singleton.1 hp
  exact hv (by rw [h2, h3]; decide) (by rw [h1]; exact demo_apart) (all_data F h2 h3 h4) y hy b

end Examples

end SlashAll
end Verif
