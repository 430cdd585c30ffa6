/-
Two facts about the meaning of rules (`Verif.Sem`) used for all transformations that introduce definitions:
the contribution of a rule to an instance of its own head, and the replacement of part of a body by the head
of a rule with that body.
-/
import Verif.UnfoldThm

set_option linter.unusedSectionVars false
set_option linter.unusedSimpArgs false

namespace Verif
open Tm

namespace Sem
open Unfold (contribAt subLit gsub_sub bv_sub mem_litVars_sub)
variable {W : Type} [CSemi W]

/-- the variables of the body that are not in the head -/
def locals (r : WRule W) : Finset Nat := bodyVars r.body \ vars r.head

/-- `b` on the local variables, `φ` elsewhere -/
def mix (φ : Nat → GTm) {L : Finset Nat} (b : Asg L) : Nat → GTm := fun n => if n ∈ L then ext b n else φ n

theorem gsub_inj {θ φ : Nat → GTm} {t : Tm} : gsub θ t = gsub φ t ↔ ∀ n ∈ vars t, θ n = φ n := by
  constructor
  · intro h n hn
    have := congrArg Subtype.val h
    exact Subtype.ext (sub_eq_on_vars this n hn)
  · exact fun h => gsub_congr h

/-- the contribution of a rule to the instance `φ` of its head: the sum over the values of its local variables -/
theorem contrib_match (r : WRule W) (v : GTm → W) (φ : Nat → GTm) :
    contrib r v (gsub φ r.head) = isum fun b : Asg (locals r) => bv v (mix φ b) r.body := by
  classical
  have hV : rvars r = vars r.head ∪ locals r := by
    ext n; simp only [rvars, locals, Finset.mem_union, Finset.mem_sdiff]; tauto
  have hdis : Disjoint (vars r.head) (locals r) := by
    rw [Finset.disjoint_left]; intro n h1 h2; simp only [locals, Finset.mem_sdiff] at h2; exact h2.2 h1
  rw [contrib_eq hV]
  have step : (isum fun c : Asg (vars r.head ∪ locals r) => if gsub (ext c) r.head = gsub φ r.head then bv v (ext c) r.body else 0) =
      isum fun c : Asg (vars r.head ∪ locals r) => (fun (a : Asg (vars r.head)) (b : Asg (locals r)) =>
        if a = cut (vars r.head) φ then bv v (mix (ext a) b) r.body else 0) (cut (vars r.head) (ext c)) (cut (locals r) (ext c)) := by
    refine isum_congr fun c => ?_
    have e1 : (gsub (ext c) r.head = gsub φ r.head) ↔ cut (vars r.head) (ext c) = cut (vars r.head) φ := by
      rw [gsub_inj]
      constructor
      · intro h; funext n; exact h n.1 n.2
      · intro h n hn; exact congrFun h ⟨n, hn⟩
    beta_reduce
    by_cases h : gsub (ext c) r.head = gsub φ r.head
    · rw [if_pos h, if_pos (e1.1 h)]
      refine bv_congr fun n hn => ?_
      unfold mix
      by_cases hl : n ∈ locals r
      · rw [if_pos hl, ext_cut hl]
      · have : n ∈ vars r.head := by
          simp only [locals, Finset.mem_sdiff] at hl; by_contra hc; exact hl ⟨hn, hc⟩
        rw [if_neg hl, ext_cut this]
    · rw [if_neg h, if_neg (fun h' => h (e1.2 h'))]
  rw [step, isum_union hdis fun (a : Asg (vars r.head)) (b : Asg (locals r)) =>
        if a = cut (vars r.head) φ then bv v (mix (ext a) b) r.body else 0]
  have : (isum fun a : Asg (vars r.head) => isum fun b : Asg (locals r) =>
      if a = cut (vars r.head) φ then bv v (mix (ext a) b) r.body else 0) =
      isum fun a : Asg (vars r.head) => if a = cut (vars r.head) φ then (isum fun b : Asg (locals r) => bv v (mix (ext a) b) r.body) else 0 := by
    refine isum_congr fun a => ?_
    split
    · rfl
    · exact isum_zero
  rw [this, isum_single]
  refine isum_congr fun b => bv_congr fun n hn => ?_
  unfold mix
  split
  · rfl
  · rename_i hl
    have : n ∈ vars r.head := by
      simp only [locals, Finset.mem_sdiff] at hl; by_contra hc; exact hl ⟨hn, hc⟩
    exact ext_cut this

/-- **Replacing part of a body by a definition.**  `B τ` is an instance of the body of `s`; the local variables of `s`
become distinct variables that occur nowhere else in the rule, and the instance of the head of `s` has no
variables that the rule does not have.  Then the rule contributes what it contributes with `B τ` replaced by
the head of `s` and valued by `s`. -/
theorem fold_core (H : Tm) (C : List (Lit W)) (s : WRule W) (τ : Nat → Tm) (ρ : Nat → Nat)
    (hτ : ∀ n ∈ locals s, τ n = .var (ρ n)) (hρ : Set.InjOn ρ (locals s))
    (hout : ∀ n ∈ locals s, ρ n ∉ rvars (⟨H, .sub (s.head.sub τ) :: C⟩ : WRule W))
    (hin : vars (s.head.sub τ) ⊆ rvars (⟨H, s.body.map (subLit τ) ++ C⟩ : WRule W)) (v : GTm → W) (x : GTm) :
    contrib ⟨H, s.body.map (subLit τ) ++ C⟩ v x = contribAt H [] (s.head.sub τ) C v (contrib s v) x := by
  classical
  set V := rvars (⟨H, .sub (s.head.sub τ) :: C⟩ : WRule W) with hV
  set L := (locals s).image ρ with hL
  have hdis : Disjoint V L := by
    rw [Finset.disjoint_left]
    intro n h1 h2
    obtain ⟨m, hm, rfl⟩ := Finset.mem_image.1 h2
    exact hout m hm h1
  have hbody : ∀ n, n ∈ bodyVars (s.body.map (subLit τ)) ↔ ∃ m ∈ bodyVars s.body, n ∈ vars (τ m) := by
    intro n
    simp only [mem_bodyVars, List.mem_map, exists_exists_and_eq_and, mem_litVars_sub]
    constructor
    · rintro ⟨l, hl, m, hm, hn⟩; exact ⟨m, ⟨l, hl, hm⟩, hn⟩
    · rintro ⟨m, ⟨l, hl, hm⟩, hn⟩; exact ⟨l, hl, m, hm, hn⟩
  have hU : rvars (⟨H, s.body.map (subLit τ) ++ C⟩ : WRule W) = V ∪ L := by
    ext n
    constructor
    · intro hn
      simp only [rvars, bodyVars_append, Finset.mem_union, hbody] at hn
      simp only [hV, rvars, bodyVars, litVars, Finset.mem_union]
      rcases hn with h | ⟨m, hm, h⟩ | h
      · exact .inl (.inl h)
      · by_cases hml : m ∈ locals s
        · rw [hτ m hml] at h
          simp only [vars_var, Finset.mem_singleton] at h
          exact .inr (Finset.mem_image.2 ⟨m, hml, h.symm⟩)
        · have : m ∈ vars s.head := by
            simp only [locals, Finset.mem_sdiff] at hml; by_contra hc; exact hml ⟨hm, hc⟩
          exact .inl (.inr (.inl (mem_vars_sub.2 ⟨m, this, h⟩)))
      · exact .inl (.inr (.inr h))
    · intro hn
      rcases Finset.mem_union.1 hn with h | h
      · simp only [hV, rvars, bodyVars, litVars, Finset.mem_union] at h
        rcases h with h | h | h
        · simp only [rvars, Finset.mem_union]; exact .inl h
        · exact hin h
        · simp only [rvars, bodyVars_append, Finset.mem_union]; exact .inr (.inr h)
      · obtain ⟨m, hm, rfl⟩ := Finset.mem_image.1 h
        simp only [rvars, bodyVars_append, Finset.mem_union, hbody]
        refine .inr (.inl ⟨m, ?_, by rw [hτ m hm]; simp⟩)
        simp only [locals, Finset.mem_sdiff] at hm
        exact hm.1
  have hH : vars H ⊆ V := by intro n hn; simp only [hV, rvars, Finset.mem_union]; exact .inl hn
  have hC : bodyVars C ⊆ V := by
    intro n hn; simp only [hV, rvars, bodyVars, Finset.mem_union]; exact .inr (.inr hn)
  have hh : vars (s.head.sub τ) ⊆ V := by
    intro n hn; simp only [hV, rvars, bodyVars, litVars, Finset.mem_union]; exact .inr (.inl hn)
  rw [contrib_eq hU]
  let F : Asg V → Asg L → W := fun a c => if gsub (ext a) H = x then
    bv v (fun n => gsub (fun m => if m ∈ L then ext c m else ext a m) (τ n)) s.body * bv v (ext a) C else 0
  have step : (isum fun c : Asg (V ∪ L) => if gsub (ext c) H = x then bv v (ext c) (s.body.map (subLit τ) ++ C) else 0) =
      isum fun c : Asg (V ∪ L) => F (cut V (ext c)) (cut L (ext c)) := by
    refine isum_congr fun c => ?_
    have c1 : ∀ n ∈ V, ext (cut V (ext c)) n = ext c n := fun n hn => ext_cut hn
    simp only [F]
    rw [gsub_congr (t := H) (fun n hn => c1 n (hH hn)), bv_append, bv_sub, bv_congr (b := C) (fun n hn => c1 n (hC hn))]
    split
    · congr 1
      refine bv_congr fun n hn => gsub_congr fun m hm => ?_
      by_cases hml : m ∈ L
      · rw [if_pos hml, ext_cut hml]
      · rw [if_neg hml]
        have : m ∈ V ∪ L := by
          rw [← hU]
          simp only [rvars, bodyVars_append, Finset.mem_union, hbody]
          exact .inr (.inl ⟨n, hn, hm⟩)
        rw [c1 m ((Finset.mem_union.1 this).resolve_right hml)]
    · rfl
  rw [step, isum_union hdis, contribAt]
  refine isum_congr fun a => ?_
  simp only [F, bv_nil, one_mul]
  by_cases hx : gsub (ext a) H = x
  swap
  · simp only [if_neg hx]; exact isum_zero
  simp only [if_pos hx]
  rw [gsub_sub, contrib_match, isum_mul]
  rw [← isum_rename hρ]
  refine isum_congr fun b => ?_
  congr 1
  refine bv_congr fun n hn => ?_
  unfold mix
  by_cases hnl : n ∈ locals s
  · rw [if_pos hnl, hτ n hnl]
    have hm : ρ n ∈ L := Finset.mem_image_of_mem _ hnl
    have e : gsub (fun m => if m ∈ L then ext b m else ext a m) (.var (ρ n)) = ext b (ρ n) := by
      apply Subtype.ext
      simp only [gsub, sub_var, if_pos hm]
    rw [e, ext_cut hnl]
  · rw [if_neg hnl]
    refine gsub_congr fun m hm => ?_
    have : n ∈ vars s.head := by
      simp only [locals, Finset.mem_sdiff] at hnl; by_contra hc; exact hnl ⟨hn, hc⟩
    rw [if_neg]
    intro hmL
    exact Finset.disjoint_left.1 hdis (hh (mem_vars_sub.2 ⟨n, this, hm⟩)) hmL

end Sem
end Verif
