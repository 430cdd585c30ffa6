/-
Property C35: introducing definitions and using them (`define`, `hook`, `binarize`) changes the value of no item
that was there before.
-/
import Verif.Hook
import Verif.Conserv
import Verif.ProgIndexThm

set_option linter.unusedSectionVars false
set_option linter.unusedSimpArgs false

namespace Verif
open Tm Heap
open Sem

namespace Hook
open Unfold (Prog Ops contribAt contribAt_self contribAt_congr subLit)
open Fold (fold safeByRev T_minus minus)
variable {W : Type} [CSemi W]

/-! ### The body is split in two -/

theorem filterMap_range {α : Type} (l : List α) : (List.range l.length).filterMap (fun j => l[j]?) = l := by
  induction l with
  | nil => rfl
  | cons a l ih =>
    rw [List.length_cons, List.range_succ_eq_map, List.filterMap_cons]
    simp only [List.getElem?_cons_zero, List.filterMap_map]
    congr 1

theorem body_perm {r : WRule W} {js : List Nat} (hn : js.Nodup) (hl : ∀ j ∈ js, j < r.body.length) :
    r.body.Perm (picked r js ++ rest r js) := by
  have h1 : (List.range r.body.length).Perm (js ++ (List.range r.body.length).filter fun j => decide (j ∉ js)) := by
    rw [List.perm_ext_iff_of_nodup List.nodup_range]
    · intro j
      simp only [List.mem_range, List.mem_append, List.mem_filter, decide_eq_true_eq]
      constructor
      · intro h; by_cases hj : j ∈ js
        · exact .inl hj
        · exact .inr ⟨h, hj⟩
      · rintro (h | h)
        · exact hl j h
        · exact h.1
    · rw [List.nodup_append']
      refine ⟨hn, List.nodup_range.filter _, ?_⟩
      intro j h1 h2
      simp only [List.mem_filter, decide_eq_true_eq] at h2
      exact h2.2 h1
  have h2 := h1.filterMap fun j => r.body[j]?
  rw [filterMap_range, List.filterMap_append] at h2
  exact h2

theorem mem_picked {r : WRule W} {js : List Nat} {l : Lit W} (h : l ∈ picked r js) : l ∈ r.body := by
  obtain ⟨j, _, hj⟩ := List.mem_filterMap.1 h
  exact List.mem_of_getElem? hj

theorem mem_rest {r : WRule W} {js : List Nat} {l : Lit W} (h : l ∈ rest r js) : l ∈ r.body := by
  obtain ⟨j, _, hj⟩ := List.mem_filterMap.1 h
  exact List.mem_of_getElem? hj

/-- a way of listing finite sets -/
def Lists (ord : Finset Nat → List Nat) : Prop := ∀ s, (ord s).toFinset = s

theorem vars_absorb {ord : Finset Nat → List Nat} (ho : Lists ord) (r : WRule W) (js : List Nat) (name : Const) :
    vars (absorb ord r js name).head = outVars r js := by
  ext n
  have h := congrArg (fun s => n ∈ s) (ho (outVars r js))
  simp only [List.mem_toFinset] at h
  simp only [absorb, vars_app, mem_varsL, List.mem_cons, List.mem_map]
  rw [← h]
  constructor
  · rintro ⟨a, rfl | ⟨m, hm, rfl⟩, ha⟩
    · simp at ha
    · simp at ha; exact ha ▸ hm
  · intro hn
    exact ⟨.var n, .inr ⟨n, hn, rfl⟩, by simp⟩

theorem subLit_var (l : Lit W) : subLit (fun n => .var n) l = l := by
  cases l with
  | val k => rfl
  | sub t => simp only [subLit, Tm.sub_id]

/-- the rule with some subgoals replaced by their definition -/
theorem contrib_hook {ord : Finset Nat → List Nat} (ho : Lists ord) {r : WRule W} {js : List Nat} (hn : js.Nodup)
    (hl : ∀ j ∈ js, j < r.body.length) (name : Const) (v : GTm → W) (x : GTm) :
    contrib r v x = contribAt r.head [] (absorb ord r js name).head (rest r js) v (contrib (absorb ord r js name) v) x := by
  set s := absorb ord r js name with hs
  have hsb : s.body = picked r js := rfl
  have hv := vars_absorb ho r js name
  rw [← hs] at hv
  have hloc : ∀ n ∈ locals s, n ∈ bodyVars (picked r js) ∧ n ∉ bodyVars (rest r js) ∧ n ∉ vars r.head := by
    intro n hn
    simp only [locals, Finset.mem_sdiff, hsb, hv, outVars, Finset.mem_union, not_and, not_not, not_or] at hn
    have := hn.2 hn.1
    exact ⟨hn.1, by tauto, by tauto⟩
  have key := fold_core r.head (rest r js) s (fun n => .var n) id (fun n _ => rfl) (fun a _ b _ h => h) ?_ ?_ v x
  · have e1 : s.body.map (subLit fun n => .var n) = s.body := by
      conv_rhs => rw [← List.map_id s.body]
      exact List.map_congr_left fun l _ => subLit_var l
    rw [e1, Tm.sub_id] at key
    rw [← key, hsb]
    exact (contrib_perm (body_perm hn hl) v x).symm
  · intro n hn
    have h := hloc n hn
    have h2 : n ∉ vars s.head := by
      simp only [locals, Finset.mem_sdiff] at hn; exact hn.2
    simp only [rvars, bodyVars, litVars, Tm.sub_id, Finset.mem_union, id_eq]
    tauto
  · intro n hn
    rw [Tm.sub_id, hv] at hn
    have e1 : s.body.map (subLit fun n => .var n) = s.body := by
      conv_rhs => rw [← List.map_id s.body]
      exact List.map_congr_left fun l _ => subLit_var l
    rw [e1]
    simp only [outVars, Finset.mem_sdiff] at hn
    simp only [rvars, bodyVars_append, hsb, Finset.mem_union]
    exact .inr (.inl hn.1)

/-! ### Freshness of names -/

theorem not_syms {p : Prog W} {f : Const} (h : f ∉ syms p) (hp : ∀ r ∈ p.rules, NamedRule r) : ∀ r ∈ p.rules, Clean (IsFn f) r := by
  intro r hr
  have h' : ∀ c, c ∈ (hfn r.head).toList ++ r.body.filterMap litFn → c ≠ f := fun c hc e =>
    h (List.mem_flatMap.2 ⟨r, hr, e ▸ hc⟩)
  refine ⟨avoids_of_ne (hp r hr).head fun e => h' f (by simp [e]) rfl, fun t ht => avoids_of_ne ((hp r hr).body t ht) fun e => h' f ?_ rfl⟩
  exact List.mem_append_right _ (List.mem_filterMap.2 ⟨_, ht, e⟩)

theorem minus_single {α : Type} (l : List α) (i : Nat) : minus l {i} = l.eraseIdx i := by
  simp [minus]

/-- the program with the new definition is an extension of the old one -/
theorem hook_extends {ord : Finset Nat → List Nat} (ho : Lists ord) {p : Prog W} {i : Nat} {r : WRule W} (hr : p.rules[i]? = some r)
    {js : List Nat} (hn : js.Nodup) (hl : ∀ j ∈ js, j < r.body.length) {name : Const}
    (hc : ∀ r ∈ p.rules, Clean (IsFn name) r) :
    Extends (IsFn name) p.rules (fold (define p [absorb ord r js name]) (revRule r (absorb ord r js name) js) {i}).rules
      (contrib (absorb ord r js name)) := by
  set s := absorb ord r js name with hs
  have hmem : r ∈ p.rules := List.mem_of_getElem? hr
  have hi : i < p.rules.length := (List.getElem?_eq_some_iff.1 hr).1
  have hq : (fold (define p [s]) (revRule r s js) {i}).rules = revRule r s js :: (p.rules.eraseIdx i ++ [s]) := by
    show revRule r s js :: minus (p.rules ++ [s]) {i} = _
    rw [minus_single, List.eraseIdx_append_of_lt_length hi]
  have hshead : ∀ θ, IsFn name (gsub θ s.head) := fun θ => by
    simp [IsFn, hs, absorb, gsub, hfn]
  have hT : ∀ v x, T (fold (define p [s]) (revRule r s js) {i}).rules v x =
      contrib (revRule r s js) v x + T (p.rules.eraseIdx i) v x + contrib s v x := by
    intro v x; rw [hq, T_cons, T_append, T_cons, T_nil]; ring
  have hp : ∀ v x, T p.rules v x = T (p.rules.eraseIdx i) v x + contrib r v x := by
    classical exact Fold.T_eraseIdx hr
  constructor
  · exact fun v w e x => T_blind (fun r hr => (hc r hr).body) e x
  · exact fun v x hx => T_clean_zero (fun r hr => (hc r hr).head) v hx
  · exact fun v w e x _ => contrib_blind (fun t ht => (hc r hmem).body t (mem_picked ht)) e x
  · intro v x hx
    rw [hT, T_clean_zero (N := IsFn name) (fun r hr => (hc r (List.mem_of_mem_eraseIdx hr)).head) v hx,
      contrib_zero (r := revRule r s js) fun θ e => (hc r hmem).head θ (e ▸ hx)]
    ring
  · intro v hv x hx
    rw [hT, hp, contrib_zero (r := s) (x := x) fun θ e => hx (e ▸ hshead θ), contrib_hook ho hn hl name v x]
    have : contrib (revRule r s js) v x = contribAt r.head [] s.head (rest r js) v (contrib s v) x := by
      rw [contribAt_congr (w := v) fun θ => (hv _ (hshead θ)).symm, contribAt_self]; rfl
    rw [this, ← hs]; ring

/-! ### The reversibility check accepts -/

open Unfold (freshR freshR_spec subRule resolvent_evt made Below UserHead unmodelled tryRule resolvent offers mem_rvars_sub lookup unfold isInput_evt)
open Fold (WVariant Faithful)
open Solver (noHeap forEach good_noHeap respects_noHeap)

theorem var_of_sub {t : Tm} {θ : Nat → Tm} {n : Nat} (h : t.sub θ = .var n) : ∃ m, t = .var m := by
  cases t with
  | var m => exact ⟨m, rfl⟩
  | con c => simp at h
  | app as => simp at h

theorem subLit_congr {σ τ : Nat → Tm} {l : Lit W} (h : ∀ n ∈ litVars l, σ n = τ n) : subLit σ l = subLit τ l := by
  cases l with
  | val k => rfl
  | sub t => exact congrArg Lit.sub (sub_congr h)

theorem subLit_ren (ρ : Nat → Nat) (l : Lit W) : subLit (fun n => .var (ρ n)) l = renLit ρ l := by cases l <;> rfl

theorem subLit_renLit (σ : Nat → Tm) (ρ : Nat → Nat) (l : Lit W) : subLit σ (renLit ρ l) = subLit (fun n => σ (ρ n)) l := by
  cases l with
  | val k => rfl
  | sub t => simp only [renLit, subLit, Tm.sub_sub, sub_var]

/-- resolving the new rule with a fresh copy of the definition gives back the old rule, up to renaming -/
theorem resolvent_variant {ord : Finset Nat → List Nat} (ho : Lists ord) {r : WRule W} {js : List Nat} (hn : js.Nodup)
    (hl : ∀ j ∈ js, j < r.body.length) (name : Const) {k : Nat} (hk : Below k r) {ρ : Nat → Nat}
    (h2 : Set.InjOn ρ (rvars (absorb ord r js name)))
    (h3 : ∀ n ∈ rvars (absorb ord r js name), k ≤ ρ n) {bs : List (Nat × Tm)}
    (hs : Spec noHeap (renRule ρ (absorb ord r js name)).head (absorb ord r js name).head (some bs)) :
    WVariant r (subRule (res (bindAll noHeap bs)) ⟨r.head, (renRule ρ (absorb ord r js name)).body ++ rest r js⟩) := by
  classical
  set s := absorb ord r js name with hsd
  have hsb : s.body = picked r js := rfl
  have hv : vars s.head = outVars r js := vars_absorb ho r js name
  have hsr : ∀ n ∈ rvars s, n ∈ rvars r := by
    intro n hn
    have hb : n ∈ bodyVars (picked r js) := by
      simp only [rvars, hv, hsb, outVars, Finset.mem_union, Finset.mem_sdiff] at hn; tauto
    obtain ⟨l, hl, hn⟩ := mem_bodyVars.1 hb
    simp only [rvars, Finset.mem_union]
    exact .inr (mem_bodyVars.2 ⟨l, mem_picked hl, hn⟩)
  cases hs with
  | ok _ hg hr hn' hd hvs =>
  set σ := res (bindAll noHeap bs) with hσ
  -- σ unifies the heads
  have hσu : ∀ n ∈ vars s.head, σ (ρ n) = σ n := by
    have := ((hr σ).1 hg.respects_res).2
    simp only [renRule, Tm.sub_sub, sub_var] at this
    exact sub_eq_on_vars this
  -- going back
  let θ : Nat → Tm := fun m => if h : ∃ n ∈ rvars s, ρ n = m then .var h.choose else .var m
  have hθρ : ∀ n ∈ rvars s, θ (ρ n) = .var n := by
    intro n hn
    have h : ∃ n' ∈ rvars s, ρ n' = ρ n := ⟨n, hn, rfl⟩
    simp only [θ, dif_pos h]
    rw [h2 h.choose_spec.1 hn h.choose_spec.2]
  have hθlt : ∀ n, n < k → θ n = .var n := by
    intro n hn
    have : ¬ ∃ m ∈ rvars s, ρ m = n := by
      rintro ⟨m, hm, rfl⟩
      exact absurd (h3 m hm) (by omega)
    simp only [θ, dif_neg this]
  have hθσ : ∀ t : Tm, (t.sub σ).sub θ = t.sub θ := fun t => hg.sub_res ((hr θ).2 ⟨respects_noHeap θ, by
    simp only [renRule, Tm.sub_sub, sub_var]
    refine sub_congr fun n hn => ?_
    have hm : n ∈ rvars s := by simp only [rvars, Finset.mem_union]; exact .inl hn
    rw [hθρ n hm, hθlt n (hk n (hsr n hm))]⟩) t
  let ψ : Nat → Tm := fun n => if n ∈ locals s then σ (ρ n) else σ n
  have hψ : ∀ n ∈ rvars r, (ψ n).sub θ = .var n := by
    intro n hn
    simp only [ψ]
    split
    · rename_i h
      have hm : n ∈ rvars s := by
        simp only [locals, Finset.mem_sdiff] at h; simp only [rvars, Finset.mem_union]; exact .inr h.1
      have := hθσ (.var (ρ n))
      simp only [sub_var] at this
      rw [this, hθρ n hm]
    · have := hθσ (.var n)
      simp only [sub_var] at this
      rw [this, hθlt n (hk n hn)]
  choose! ξ hξ using fun n (hn : n ∈ rvars r) => var_of_sub (hψ n hn)
  have hloc : ∀ n ∈ locals s, n ∉ bodyVars (rest r js) ∧ n ∉ vars r.head := by
    intro n hn
    simp only [locals, Finset.mem_sdiff, hsb, hv, outVars, Finset.mem_union, not_and, not_not, not_or] at hn
    have := hn.2 hn.1
    exact ⟨by tauto, by tauto⟩
  refine ⟨ξ, ?_, ?_, ?_⟩
  · intro a ha b hb e
    have e1 := hψ a ha
    have e2 := hψ b hb
    rw [hξ a ha] at e1
    rw [hξ b hb, ← e, e1] at e2
    simpa using e2
  · show r.head.sub σ = _
    refine sub_congr fun n hn => ?_
    have hm : n ∈ rvars r := by simp only [rvars, Finset.mem_union]; exact .inl hn
    rw [← hξ n hm]
    simp only [ψ]
    rw [if_neg fun h => (hloc n h).2 hn]
  · have e : (List.map (subLit σ) ((renRule ρ s).body ++ rest r js)) = (picked r js ++ rest r js).map (renLit ξ) := by
      rw [List.map_append, List.map_append]
      congr 1
      · show (s.body.map (renLit ρ)).map (subLit σ) = _
        rw [hsb, List.map_map]
        refine List.map_congr_left fun l hl => ?_
        show subLit σ (renLit ρ l) = _
        rw [subLit_renLit, ← subLit_ren]
        refine subLit_congr fun n hn => ?_
        have hb : n ∈ bodyVars (picked r js) := mem_bodyVars.2 ⟨l, hl, hn⟩
        have hm : n ∈ rvars r := by
          simp only [rvars, Finset.mem_union]; exact .inr (mem_bodyVars.2 ⟨l, mem_picked hl, hn⟩)
        rw [← hξ n hm]
        simp only [ψ]
        split
        · rfl
        · rename_i h
          refine hσu n ?_
          by_contra hc
          exact h (by simp only [locals, Finset.mem_sdiff, hsb]; exact ⟨hb, hc⟩)
      · refine List.map_congr_left fun l hl => ?_
        rw [← subLit_ren]
        refine subLit_congr fun n hn => ?_
        have hb : n ∈ bodyVars (rest r js) := mem_bodyVars.2 ⟨l, hl, hn⟩
        have hm : n ∈ rvars r := by
          simp only [rvars, Finset.mem_union]; exact .inr (mem_bodyVars.2 ⟨l, mem_rest hl, hn⟩)
        rw [← hξ n hm]
        simp only [ψ]
        rw [if_neg fun h => (hloc n h).1 hb]
    show (List.map (subLit σ) ((renRule ρ s).body ++ rest r js)).Perm _
    rw [e]
    exact ((body_perm hn hl).map _).symm

variable [DecidableEq W] {S' : Type} [DecidableEq S'] {o : RuleOps (WRule W) S'}

/-- a rule comparison that identifies exactly the variants -/
structure Exact (o : RuleOps (WRule W) S') : Prop where
  lawful : o.Lawful
  iff : ∀ r s, o.same r s = true ↔ WVariant r s

/-- what is needed of a new name: no builtin, not an input -/
structure NameOK (ops : Ops) (ins : List Tm) (name : Const) : Prop where
  ops : ops name = none
  eq : name ≠ .str "="
  modelled : unmodelled name = false
  input : ∀ t ∈ ins, Avoids (IsFn name) t

theorem fresh_variant (k : Nat) (t : WRule W) : WVariant t (freshR k t).1 := by
  obtain ⟨ρ, h1, h2, _⟩ := freshR_spec k t
  rw [h1]
  exact ⟨ρ, h2, rfl, .refl _⟩

theorem offers_last {rs : List (WRule W)} {s : WRule W} {name : Const} (hs : hfn s.head = some name)
    (h : ∀ r ∈ rs, hfn r.head ≠ some name) : offers (rs ++ [s]) name = [(s, rs.length)] := by
  unfold offers
  rw [List.zipIdx_append, List.filter_append]
  have h1 : (rs.zipIdx.filter fun ir => hfn ir.1.head == some name) = [] := by
    rw [List.filter_eq_nil_iff]
    rintro ⟨r, n⟩ hr
    simp only [beq_iff_eq]
    exact h r (List.fst_mem_of_mem_zipIdx hr)
  rw [h1]
  simp [hs]

theorem hfn_ne {name : Const} {t : Tm} (h : Avoids (IsFn name) t) (hn : Named t) : hfn t ≠ some name := fun e =>
  h (fun _ => g0) (by unfold IsFn; rw [hfn_gsub hn, e])

theorem reverse_ok (hx : Exact o) {ord : Finset Nat → List Nat} (ho : Lists ord) {ops : Ops} {p : Prog W} {i : Nat} {r : WRule W}
    (hr : p.rules[i]? = some r) {js : List Nat} (hn : js.Nodup) (hl : ∀ j ∈ js, j < r.body.length) {name : Const}
    (hc : ∀ r ∈ p.rules, Clean (IsFn name) r) (hh : ∀ r ∈ p.rules, Named r.head) (hname : NameOK ops p.inputs name)
    {k : Nat} (hk : Below k r) :
    Evt (fun f => safeByRev f o ops infty k (define p [absorb ord r js name]) (revRule r (absorb ord r js name) js) {i} 0 = some true) := by
  set s := absorb ord r js name with hs
  have hmem : r ∈ p.rules := List.mem_of_getElem? hr
  have hi : i < p.rules.length := (List.getElem?_eq_some_iff.1 hr).1
  have hq : (fold (define p [s]) (revRule r s js) {i}).rules = (revRule r s js :: p.rules.eraseIdx i) ++ [s] := by
    show revRule r s js :: minus (p.rules ++ [s]) {i} = _
    rw [minus_single, List.eraseIdx_append_of_lt_length hi, List.cons_append]
  have hsf : hfn s.head = some name := by simp [hs, absorb, hfn]
  have hoff : offers (fold (define p [s]) (revRule r s js) {i}).rules name = [(s, (revRule r s js :: p.rules.eraseIdx i).length)] := by
    rw [hq]
    refine offers_last hsf fun t ht => ?_
    rcases List.mem_cons.1 ht with rfl | ht
    · exact hfn_ne (hc r hmem).head (hh r hmem)
    · exact hfn_ne (hc t (List.mem_of_mem_eraseIdx ht)).head (hh t (List.mem_of_mem_eraseIdx ht))
  set n := (revRule r s js :: p.rules.eraseIdx i).length with hnn
  obtain ⟨ρ, f1, f2, f3, f4⟩ := freshR_spec k s
  obtain ⟨res', hsp, hev⟩ := unify_result good_noHeap (freshR k s).1.head s.head
  cases res' with
  | none =>
    exfalso
    cases hsp with
    | fail hf =>
      refine hf (fun m => .con (.int 0)) (respects_noHeap _) ?_
      rw [f1]
      simp only [renRule, Tm.sub_sub, sub_var]
  | some bs =>
    have hvar : WVariant r (subRule (res (bindAll noHeap bs)) ⟨r.head, (freshR k s).1.body ++ rest r js⟩) := by
      rw [f1] at hsp ⊢
      exact resolvent_variant ho hn hl name hk f2 (fun n hn => (f3 n hn).1) hsp
    cases hsp with
    | ok _ hg hrr hn' hd hvs =>
    set σ := res (bindAll noHeap bs) with hσ
    have hu : unbindAll bs (bindAll noHeap bs) = noHeap := unbindAll_bindAll hn' fun p _ => rfl
    -- no variable gets lost
    have hmade : made infty (subRule σ ⟨r.head, (freshR k s).1.body ++ rest r js⟩) (subRule σ (freshR k s).1) =
        subRule σ ⟨r.head, (freshR k s).1.body ++ rest r js⟩ := by
      unfold made
      rw [if_pos]
      intro m hm
      obtain ⟨n, hn, hm⟩ := mem_rvars_sub.1 hm
      refine mem_rvars_sub.2 ⟨n, ?_, hm⟩
      have : n ∈ bodyVars (freshR k s).1.body := by
        rw [f1] at hn ⊢
        rw [rvars_renRule] at hn
        obtain ⟨a, ha, rfl⟩ := Finset.mem_image.1 hn
        have hv : vars s.head = outVars r js := vars_absorb ho r js name
        have hb : a ∈ bodyVars (picked r js) := by
          have hsb : s.body = picked r js := rfl
          simp only [rvars, hv, hsb, outVars, Finset.mem_union, Finset.mem_sdiff] at ha; tauto
        obtain ⟨l, hl, ha⟩ := mem_bodyVars.1 hb
        refine mem_bodyVars.2 ⟨renLit ρ l, List.mem_map_of_mem hl, ?_⟩
        cases l with
        | val c => simp [litVars] at ha
        | sub t => simp only [renLit, litVars, vars_renTm]; exact Finset.mem_image_of_mem _ ha
      simp only [rvars, bodyVars_append, Finset.mem_union]
      exact .inr (.inl this)
    have hres := resolvent_evt hg infty r.head [] (rest r js) (freshR k s).1 (some n)
    simp only [List.nil_append, ← hσ, hmade] at hres
    have hin : Evt (fun f => Unfold.isInput f s.head noHeap p.inputs = some false) := isInput_evt fun t ht θ φ e =>
      hname.input t ht θ (by rw [e]; simp [IsFn, hs, absorb, gsub, hfn])
    refine ((hev.and hres).and hin).mono fun f e => ?_
    obtain ⟨⟨e1, e2⟩, e3⟩ := e
    have hlook : lookup f ops (fold (define p [s]) (revRule r s js) {i}).rules s.head (resolvent f infty r.head [] (rest r js)) noHeap ⟨[], k⟩ =
        forEach (offers (fold (define p [s]) (revRule r s js) {i}).rules name) (tryRule f s.head (resolvent f infty r.head [] (rest r js))) noHeap ⟨[], k⟩ := by
      have hsh : s.head = .app (.con name :: (ord (outVars r js)).map .var) := rfl
      rw [hsh]
      unfold lookup
      simp only [hname.modelled, hname.ops, Bool.false_eq_true, if_false]
      split
      · exact absurd rfl hname.eq
      · rfl
    have hrule : (fold (define p [s]) (revRule r s js) {i}).rules[0]? = some (revRule r s js) := by rw [hq]; rfl
    have hgoal : (revRule r s js).body[0]? = some (.sub s.head) := rfl
    have hrun : ∃ st, unfold f ops infty k (fold (define p [s]) (revRule r s js) {i}) (fold (define p [s]) (revRule r s js) {i}) 0 0 =
        some ((fold (define p [s]) (revRule r s js) {i}).rules.erase (revRule r s js) ++
          [(freshR (freshR k s).2 (subRule σ ⟨r.head, (freshR k s).1.body ++ rest r js⟩)).1], st, .done) := by
      refine ⟨⟨[((freshR (freshR k s).2 (subRule σ ⟨r.head, (freshR k s).1.body ++ rest r js⟩)).1, some n)],
        (freshR (freshR k s).2 (subRule σ ⟨r.head, (freshR k s).1.body ++ rest r js⟩)).2⟩, ?_⟩
      have hin' : Unfold.isInput f s.head noHeap (fold (define p [s]) (revRule r s js) {i}).inputs = some false := e3
      simp only [unfold, hrule, hgoal, hin']
      have hh1 : (revRule r s js).head = r.head := rfl
      have hh2 : (revRule r s js).body.take 0 = [] := rfl
      have hh3 : (revRule r s js).body.drop (0 + 1) = rest r js := rfl
      rw [hh1, hh2, hh3, hlook, hoff]
      simp only [forEach, tryRule]
      rw [e1]
      simp only [run, e2, hu, List.nil_append, List.map_cons, List.map_nil]
    obtain ⟨st, hrun⟩ := hrun
    unfold safeByRev
    rw [hrun]
    simp only [Option.some.injEq]
    rw [RuleOps.C17_eq hx.lawful (by simp)]
    refine ⟨p.rules.eraseIdx i ++ [s] ++ [r], ?_, ?_⟩
    · show (p.rules.eraseIdx i ++ [s] ++ [r]).Perm (p.rules ++ [s])
      have h1 := List.getElem_cons_eraseIdx_perm hi
      have h2 : p.rules[i] = r := (List.getElem?_eq_some_iff.1 hr).2
      rw [h2] at h1
      refine (List.perm_append_comm).trans ?_
      exact h1.append_right [s]
    · rw [hq]
      simp only [List.cons_append, List.erase_cons_head]
      refine List.rel_append (List.forall₂_same.2 fun t _ => hx.lawful.refl t) (.cons ?_ .nil)
      rw [hx.iff]
      exact (hvar.trans (fresh_variant _ _)).symm

/-! ### Property C35 -/

/-- **C35 (define, naive evaluation).**  Definitions for new items do not change any round of naive evaluation on
the other items. -/
theorem C35_define {N : GTm → Prop} {p : Prog W} {defs : List (WRule W)} (hp : ∀ r ∈ p.rules, Clean N r)
    (hd : ∀ r ∈ defs, ∀ θ, N (gsub θ r.head)) (d : GTm → W) (n : Nat) (x : GTm) (hx : ¬ N x) :
    rounds (define p defs).rules d n x = rounds p.rules d n x := by
  have h0 : ∀ v x, ¬ N x → T (define p defs).rules v x = T p.rules v x := fun v x hx => by
    show T (p.rules ++ defs) v x = _
    rw [T_append]
    have : T defs v x = 0 := by
      unfold T
      apply List.sum_eq_zero
      intro y hy
      obtain ⟨r, hr, rfl⟩ := List.mem_map.1 hy
      exact contrib_zero fun θ e => hx (e ▸ hd r hr θ)
    rw [this, add_zero]
  induction n generalizing x with
  | zero => rfl
  | succ n ih =>
    show d x + T (define p defs).rules _ x = d x + T p.rules _ x
    rw [h0 _ x hx, T_blind (fun r hr => (hp r hr).body) ih]

/-- **C35 (define, solutions).**  Solutions with the definitions are solutions without them; if the definitions do
not refer to one another, each solution has exactly one extension. -/
theorem C35_define_solutions {N : GTm → Prop} {p : Prog W} {defs : List (WRule W)} (hp : ∀ r ∈ p.rules, Clean N r)
    (hd : ∀ r ∈ defs, ∀ θ, N (gsub θ r.head)) :
    (∀ d, (∀ x, N x → d x = 0) → ∀ w, Sol (define p defs).rules d w → Sol p.rules d (off N w)) ∧
    ((∀ r ∈ defs, ∀ t, Lit.sub t ∈ r.body → Avoids N t) → Conservative N p.rules (define p defs).rules) := by
  have h0 : ∀ v x, ¬ N x → T (define p defs).rules v x = T p.rules v x := fun v x hx => by
    show T (p.rules ++ defs) v x = _
    rw [T_append]
    have : T defs v x = 0 := by
      unfold T
      apply List.sum_eq_zero
      intro y hy
      obtain ⟨r, hr, rfl⟩ := List.mem_map.1 hy
      exact contrib_zero fun θ e => hx (e ▸ hd r hr θ)
    rw [this, add_zero]
  have hz : ∀ v x, N x → T p.rules v x = 0 := fun v x hx => T_clean_zero (fun r hr => (hp r hr).head) v hx
  constructor
  · intro d hd0 w hw x
    have e1 : T p.rules (off N w) x = T p.rules w x := T_blind (fun r hr => (hp r hr).body) (fun y hy => by simp [off, hy]) x
    rw [e1]
    by_cases hx : N x
    · simp [off, hx, hd0 x hx, hz w x hx]
    · rw [← h0 w x hx]; simp only [off, if_neg hx]; exact hw x
  · intro hb
    exact Extends.conservative (e := T defs) ⟨fun v w e x => T_blind (fun r hr => (hp r hr).body) e x, hz,
      fun v w e x _ => T_blind hb e x, fun v x hx => by
        show T (p.rules ++ defs) v x = _
        rw [T_append, hz v x hx, zero_add], fun v _ x hx => h0 v x hx⟩

/-- the steps of `hook` that returned -/
theorem hook_inv {f : Nat} {e : Env W S'} {p q : Prog W} {c c' i : Nat} {js : List Nat} (h : hook f e p c i js = some (q, c')) :
    ∃ r, p.rules[i]? = some r ∧ (∀ j ∈ js, j < r.body.length) ∧ genName (c + 1) ∉ syms p ∧ c' = c + 1 ∧
      q = fold (define p [absorb e.ord r js (genName (c + 1))]) (revRule r (absorb e.ord r js (genName (c + 1))) js) {i} := by
  unfold hook at h
  split at h
  · exact absurd h (by simp)
  rename_i r hr
  split at h
  · exact absurd h (by simp)
  rename_i hj
  split at h
  · exact absurd h (by simp)
  rename_i name c1 hg
  unfold genFunctor at hg
  split at hg
  · exact absurd hg (by simp)
  rename_i hsy
  simp only [Option.some.injEq, Prod.mk.injEq] at hg
  obtain ⟨rfl, rfl⟩ := hg
  simp only at h
  split at h
  · simp only [Option.some.injEq, Prod.mk.injEq] at h
    refine ⟨r, hr, ?_, hsy, h.2.symm, h.1.symm⟩
    intro j hjs
    by_contra hc
    exact hj (List.any_eq_true.2 ⟨j, hjs, by simpa using hc⟩)
  · exact absurd h (by simp)

/-- **C35 (hook).**  If `hook` returns, its result is conservative: each solution of the program has exactly one
extension to the items with the generated name that solves the result, and there are no others. -/
theorem C35_hook {f : Nat} {e : Env W S'} (he : Lists e.ord) {p q : Prog W} {c c' i : Nat} {js : List Nat} (hjs : js.Nodup)
    (hp : ∀ r ∈ p.rules, NamedRule r) (h : hook f e p c i js = some (q, c')) :
    Conservative (IsFn (genName (c + 1))) p.rules q.rules := by
  obtain ⟨r, hr, hl, hs, rfl, rfl⟩ := hook_inv h
  exact (hook_extends he hr hjs hl (not_syms hs hp)).conservative

/-- **C35 (hook, naive evaluation).**  The rounds of naive evaluation of the two programs interleave on the old items,
so their limits are the same. -/
theorem C35_hook_least {W : Type} [OSemi W] [DecidableEq W] {f : Nat} {e : Env W S'} (he : Lists e.ord) {p q : Prog W} {c c' i : Nat} {js : List Nat} (hjs : js.Nodup)
    (hp : ∀ r ∈ p.rules, NamedRule r) (h : hook f e p c i js = some (q, c')) :
    (∀ d : GTm → W, (∀ x, IsFn (genName (c + 1)) x → d x = 0) → ∀ n x, ¬ IsFn (genName (c + 1)) x →
      rounds q.rules d n x ≤ rounds p.rules d n x ∧ rounds p.rules d n x ≤ rounds q.rules d (2 * n) x) ∧
    SameLeast (IsFn (genName (c + 1))) p.rules q.rules := by
  obtain ⟨r, hr, hl, hs, rfl, rfl⟩ := hook_inv h
  have hx := hook_extends he hr hjs hl (not_syms hs hp)
  refine ⟨fun d hd n x hn => ⟨?_, hx.rounds_ge hd n x hn⟩, hx.sameLeast⟩
  have := hx.rounds_le hd n x
  rwa [Extends.fill_off _ _ hn] at this

/-- **C35 (hook returns).**  For subgoals that exist and an unused name, the reversibility check accepts. -/
theorem C35_hook_returns {e : Env W S'} (hx : Exact e.o) (he : Lists e.ord) (hinf : e.inf = infty) {p : Prog W} {c i : Nat} {js : List Nat} (hjs : js.Nodup)
    (hp : ∀ r ∈ p.rules, NamedRule r) (hk : ∀ r ∈ p.rules, Below e.k r) {r : WRule W} (hr : p.rules[i]? = some r) (hl : ∀ j ∈ js, j < r.body.length)
    (hs : genName (c + 1) ∉ syms p) (hn : NameOK e.ops p.inputs (genName (c + 1))) :
    ∃ q, Evt (fun f => hook f e p c i js = some (q, c + 1)) := by
  have h := reverse_ok hx he hr hjs hl (not_syms hs hp) (fun r hr => (hp r hr).head) hn (hk r (List.mem_of_getElem? hr))
  refine ⟨fold (define p [absorb e.ord r js (genName (c + 1))]) (revRule r (absorb e.ord r js (genName (c + 1))) js) {i}, h.mono fun f hf => ?_⟩
  have hj : ¬ (js.any fun j => decide (r.body.length ≤ j)) = true := by
    intro hc
    obtain ⟨j, h1, h2⟩ := List.any_eq_true.1 hc
    have := hl j h1
    simp only [decide_eq_true_eq] at h2
    omega
  rw [← hinf] at hf
  simp only [hook, hr, genFunctor, if_neg hs, if_neg hj, hf]

/-! ### Binarization -/

/-- the items with a name generated after `c`, up to `c'` -/
def Gen (c c' : Nat) (x : GTm) : Prop := ∃ n, c < n ∧ n ≤ c' ∧ IsFn (genName n) x

theorem hook_named {f : Nat} {e : Env W S'} {p q : Prog W} {c c' i : Nat} {js : List Nat} (hp : ∀ r ∈ p.rules, NamedRule r)
    (h : hook f e p c i js = some (q, c')) : ∀ r ∈ q.rules, NamedRule r := by
  obtain ⟨r, hr, hl, hs, rfl, rfl⟩ := hook_inv h
  have hmem : r ∈ p.rules := List.mem_of_getElem? hr
  have hi : i < p.rules.length := (List.getElem?_eq_some_iff.1 hr).1
  intro t ht
  change t ∈ revRule r _ js :: minus (p.rules ++ [_]) {i} at ht
  rw [minus_single, List.eraseIdx_append_of_lt_length hi] at ht
  simp only [List.mem_cons, List.mem_append, List.not_mem_nil, or_false] at ht
  rcases ht with rfl | ht | rfl
  · refine ⟨(hp r hmem).head, fun t ht => ?_⟩
    rcases List.mem_cons.1 ht with ht | ht
    · cases ht; exact ⟨_, _, rfl⟩
    · exact (hp r hmem).body t (mem_rest ht)
  · exact hp t (List.mem_of_mem_eraseIdx ht)
  · exact ⟨⟨_, _, rfl⟩, fun t ht => (hp r hmem).body t (mem_picked ht)⟩

/-- the shape of what `hook` returns -/
theorem hook_rules {f : Nat} {e : Env W S'} {p q : Prog W} {c c' i : Nat} {js : List Nat} (h : hook f e p c i js = some (q, c')) :
    ∃ r rev tmp, p.rules[i]? = some r ∧ q.rules = rev :: (p.rules.eraseIdx i ++ [tmp]) ∧ rev.body.length = (rest r js).length + 1 ∧
      tmp.body.length = (picked r js).length ∧ q.inputs = p.inputs := by
  obtain ⟨r, hr, hl, hs, rfl, rfl⟩ := hook_inv h
  have hi : i < p.rules.length := (List.getElem?_eq_some_iff.1 hr).1
  refine ⟨r, revRule r (absorb e.ord r js (genName (c + 1))) js, absorb e.ord r js (genName (c + 1)), hr, ?_, by simp [revRule], rfl, rfl⟩
  show revRule r _ js :: minus (p.rules ++ [_]) {i} = _
  rw [minus_single, List.eraseIdx_append_of_lt_length hi]

/-- the loop of `binarize` chains steps of `hook`; `Q` is any relation that holds of such steps -/
theorem binLoop_spec {f : Nat} {e : Env W S'} {Q : (GTm → Prop) → List (WRule W) → List (WRule W) → Prop}
    (hQ0 : ∀ (N : GTm → Prop) (p : List (WRule W)), (∀ x, ¬ N x) → Q N p p)
    (hQ1 : ∀ (p q : Prog W) (c c' i : Nat) (js : List Nat), js.Nodup → (∀ r ∈ p.rules, NamedRule r) → hook f e p c i js = some (q, c') →
      Q (IsFn (genName (c + 1))) p.rules q.rules)
    (hQ2 : ∀ M N p q r, Q M p q → Q N q r → Q (fun x => M x ∨ N x) p r) : ∀ (g : Nat) (p q : Prog W) (c c' i : Nat),
    (∀ r ∈ p.rules, NamedRule r) → (∀ r ∈ p.rules.take i, r.body.length ≤ 2) → binLoop f e g p c i = some (q, c') →
    c ≤ c' ∧ Q (Gen c c') p.rules q.rules ∧ ∀ r ∈ q.rules, r.body.length ≤ 2
  | 0, p, q, c, c', i, _, _, h => by simp [binLoop] at h
  | g + 1, p, q, c, c', i, hp, hi, h => by
    unfold binLoop at h
    split at h
    · rename_i hn
      simp only [Option.some.injEq, Prod.mk.injEq] at h
      obtain ⟨rfl, rfl⟩ := h
      refine ⟨le_refl _, hQ0 _ _ (fun x ⟨n, h1, h2, _⟩ => by omega), fun r hr => hi r ?_⟩
      rw [List.take_of_length_le (List.getElem?_eq_none_iff.1 hn)]
      exact hr
    · rename_i r hr
      split at h
      · rename_i hlen
        split at h
        · exact absurd h (by simp)
        rename_i q1 c1 hh
        have hnd : (List.range' 1 (r.body.length - 1)).Nodup := List.nodup_range' ..
        have h1 := hQ1 _ _ _ _ _ _ hnd hp hh
        obtain ⟨r', rev, tmp, g1, g2, g3, g4, g5⟩ := hook_rules hh
        obtain rfl : r' = r := by rw [hr] at g1; exact (Option.some.inj g1).symm
        obtain ⟨_, _, _, _, hc1, _⟩ := hook_inv hh
        have hilt : i < p.rules.length := (List.getElem?_eq_some_iff.1 hr).1
        have hrest : (rest r' (List.range' 1 (r'.body.length - 1))).length ≤ 1 := by
          unfold rest
          refine le_trans (List.length_filterMap_le _ _) ?_
          have hsub : ((List.range r'.body.length).filter fun j => decide (j ∉ List.range' 1 (r'.body.length - 1))) ⊆ [0] := by
            intro j hj
            simp only [List.mem_filter, List.mem_range, decide_eq_true_eq, List.mem_range'_1, not_and, not_lt] at hj
            simp only [List.mem_singleton]
            omega
          exact (List.Nodup.subperm (List.nodup_range.filter _) hsub).length_le
        have h2 := binLoop_spec hQ0 hQ1 hQ2 g q1 q c1 c' (i + 1) (hook_named hp hh) (by
          intro t ht
          rw [g2, List.take_succ_cons, List.take_append_of_le_length (by rw [List.length_eraseIdx_of_lt hilt]; omega)] at ht
          rcases List.mem_cons.1 ht with rfl | ht
          · rw [g3]; omega
          · rw [List.take_eraseIdx_eq_take_of_le _ _ _ (le_refl i)] at ht
            exact hi t ht) h
        refine ⟨by omega, ?_, h2.2.2⟩
        have h3 := hQ2 _ _ _ _ _ h1 h2.2.1
        have e1 : (fun x => IsFn (genName (c + 1)) x ∨ Gen c1 c' x) = Gen c c' := by
          funext x
          apply propext
          constructor
          · rintro (hx | ⟨n, a, b, hx⟩)
            · exact ⟨c + 1, by omega, by omega, hx⟩
            · exact ⟨n, by omega, b, hx⟩
          · rintro ⟨n, a, b, hx⟩
            by_cases hn : n = c + 1
            · exact .inl (hn ▸ hx)
            · exact .inr ⟨n, by omega, b, hx⟩
        rw [e1] at h3
        exact h3
      · rename_i hlen
        refine binLoop_spec hQ0 hQ1 hQ2 g p q c c' (i + 1) hp (fun t ht => ?_) h
        rw [List.take_add_one, hr] at ht
        simp only [Option.toList_some, List.mem_append, List.mem_singleton] at ht
        rcases ht with ht | rfl
        · exact hi t ht
        · omega

/-- **C35 (binarize).**  If `binarize` returns, each solution of the program has exactly one extension to the items
with generated names that solves the result, there are no other solutions, and no rule has more than two subgoals. -/
theorem C35_binarize {f : Nat} {e : Env W S'} (he : Lists e.ord) {p q : Prog W} {c c' : Nat} (hp : ∀ r ∈ p.rules, NamedRule r)
    (h : binarize f e p c = some (q, c')) :
    Conservative (Gen c c') p.rules q.rules ∧ ∀ r ∈ q.rules, r.body.length ≤ 2 :=
  (binLoop_spec (Q := Conservative) (fun N p hN => .refl N fun v x hx => absurd hx (hN x))
    (fun _ _ _ _ _ _ h1 h2 h3 => C35_hook he h1 h2 h3) (fun _ _ _ _ _ h1 h2 => h1.trans h2) f p q c c' 0 hp (by simp) h).2

/-- **C35 (binarize, naive evaluation).**  The limits of naive evaluation are the same on all items without a generated name. -/
theorem C35_binarize_least {W : Type} [OSemi W] [DecidableEq W] {f : Nat} {e : Env W S'} (he : Lists e.ord) {p q : Prog W} {c c' : Nat}
    (hp : ∀ r ∈ p.rules, NamedRule r) (h : binarize f e p c = some (q, c')) : SameLeast (Gen c c') p.rules q.rules :=
  (binLoop_spec (Q := SameLeast) (fun N p _ => .refl N p)
    (fun _ _ _ _ _ _ h1 h2 h3 => (C35_hook_least he h1 h2 h3).2) (fun _ _ _ _ _ h1 h2 => h1.trans h2) f p q c c' 0 hp (by simp) h).2.1

/-! ### Binarization terminates -/

theorem genName_inj {m n : Nat} (h : genName m = genName n) : m = n := by
  simp only [genName, Const.str.injEq] at h
  exact GenFunctor.append_repr_inj h

/-- what is left to do -/
def todo (rs : List (WRule W)) (i : Nat) : Nat := ((rs.drop i).map fun r => r.body.length + 1).sum

theorem binLoop_total {e : Env W S'} (hx : Exact e.o) (he : Lists e.ord) (hinf : e.inf = infty) : ∀ (m : Nat) (p : Prog W) (c i : Nat),
    (∀ r ∈ p.rules, NamedRule r) → (∀ r ∈ p.rules, Below e.k r) → (∀ n, c < n → genName n ∉ syms p) →
    (∀ n, c < n → NameOK e.ops p.inputs (genName n)) → todo p.rules i ≤ m →
    ∃ out, Evt (fun f => ∀ g, m < g → binLoop f e g p c i = some out)
  | m, p, c, i, hp, hk, hs, hn, hm => by
    by_cases hr : ∃ r, p.rules[i]? = some r
    swap
    · have hr : p.rules[i]? = none := by
        cases h : p.rules[i]? with
        | none => rfl
        | some r => exact absurd ⟨r, h⟩ hr
      refine ⟨(p, c), .of_all fun f g hg => ?_⟩
      obtain ⟨g, rfl⟩ : ∃ g', g = g' + 1 := ⟨g - 1, by omega⟩
      simp only [binLoop, hr]
    obtain ⟨r, hr⟩ := hr
    have hmem : r ∈ p.rules := List.mem_of_getElem? hr
    obtain ⟨hi, hri⟩ := List.getElem?_eq_some_iff.1 hr
    have htodo : todo p.rules i = r.body.length + 1 + todo p.rules (i + 1) := by
      unfold todo
      rw [List.drop_eq_getElem_cons hi, List.map_cons, List.sum_cons, hri]
    by_cases hlen : 2 < r.body.length
    swap
    · obtain ⟨out, h⟩ := binLoop_total hx he hinf (m - 1) p c (i + 1) hp hk hs hn (by omega)
      refine ⟨out, h.mono fun f hf g hg => ?_⟩
      obtain ⟨g, rfl⟩ : ∃ g', g = g' + 1 := ⟨g - 1, by omega⟩
      simp only [binLoop, hr, if_neg hlen]
      exact hf g (by omega)
    · have hl : ∀ j ∈ List.range' 1 (r.body.length - 1), j < r.body.length := by
        intro j hj; simp only [List.mem_range'_1] at hj; omega
      obtain ⟨q, hq⟩ := C35_hook_returns hx he hinf (js := List.range' 1 (r.body.length - 1)) (List.nodup_range' ..) hp hk hr hl
        (hs _ (Nat.lt_succ_self c)) (hn _ (Nat.lt_succ_self c))
      obtain ⟨f0, hf0⟩ := hq
      have hh := hf0 f0 (le_refl _)
      obtain ⟨r', hr', -, -, -, hqd⟩ := hook_inv hh
      obtain rfl : r' = r := by rw [hr] at hr'; exact (Option.some.inj hr').symm
      set tmp := absorb e.ord r' (List.range' 1 (r'.body.length - 1)) (genName (c + 1)) with htmp
      set rev := revRule r' tmp (List.range' 1 (r'.body.length - 1)) with hrev
      have g2 : q.rules = rev :: (p.rules.eraseIdx i ++ [tmp]) := by
        rw [hqd]
        show revRule r' _ _ :: minus (p.rules ++ [_]) {i} = _
        rw [minus_single, List.eraseIdx_append_of_lt_length hi]
      have hqi : q.inputs = p.inputs := by rw [hqd]; rfl
      have hpl : (picked r' (List.range' 1 (r'.body.length - 1))).length ≤ r'.body.length - 1 := by
        unfold picked
        refine le_trans (List.length_filterMap_le _ _) ?_
        rw [List.length_range']
      have hvt : rvars tmp ⊆ rvars r' := by
        intro n hn
        have hv : vars tmp.head = outVars r' _ := vars_absorb he r' _ _
        have hb : n ∈ bodyVars (picked r' (List.range' 1 (r'.body.length - 1))) := by
          have hsb : tmp.body = picked r' (List.range' 1 (r'.body.length - 1)) := rfl
          simp only [rvars, hv, hsb, outVars, Finset.mem_union, Finset.mem_sdiff] at hn; tauto
        obtain ⟨l, hl, hn⟩ := mem_bodyVars.1 hb
        exact litVars_sub_rvars (mem_picked hl) hn
      have H1 : ∀ r ∈ q.rules, Below e.k r := by
        intro t ht
        rw [g2] at ht
        simp only [List.mem_cons, List.mem_append, List.not_mem_nil, or_false] at ht
        rcases ht with rfl | ht | rfl
        · intro n hn
          refine hk r' hmem n ?_
          simp only [hrev, revRule, rvars, bodyVars, litVars, Finset.mem_union] at hn
          rcases hn with hn | hn | hn
          · simp only [rvars, Finset.mem_union]; exact .inl hn
          · exact hvt (by simp only [rvars, Finset.mem_union]; exact .inl hn)
          · obtain ⟨l, hl, hn⟩ := mem_bodyVars.1 hn
            exact litVars_sub_rvars (mem_rest hl) hn
        · exact hk t (List.mem_of_mem_eraseIdx ht)
        · exact fun n hn => hk r' hmem n (hvt hn)
      have H2 : ∀ n, c + 1 < n → genName n ∉ syms q := by
        intro n hn hc
        have hne : genName n ≠ genName (c + 1) := fun h => by have := genName_inj h; omega
        refine hs n (by omega) ?_
        obtain ⟨t, ht, hc⟩ := List.mem_flatMap.1 hc
        rw [g2] at ht
        simp only [List.mem_cons, List.mem_append, List.not_mem_nil, or_false] at ht
        refine List.mem_flatMap.2 ?_
        rcases ht with rfl | ht | rfl
        · refine ⟨r', hmem, ?_⟩
          rcases List.mem_append.1 hc with hc | hc
          · exact List.mem_append_left _ hc
          · simp only [hrev, revRule, List.filterMap_cons, litFn] at hc
            have htf : hfn tmp.head = some (genName (c + 1)) := rfl
            rw [htf] at hc
            rcases List.mem_cons.1 hc with hc | hc
            · exact absurd hc hne
            · obtain ⟨l, hl, hc⟩ := List.mem_filterMap.1 hc
              exact List.mem_append_right _ (List.mem_filterMap.2 ⟨l, mem_rest hl, hc⟩)
        · exact ⟨t, List.mem_of_mem_eraseIdx ht, hc⟩
        · refine ⟨r', hmem, ?_⟩
          rcases List.mem_append.1 hc with hc | hc
          · have htf : hfn tmp.head = some (genName (c + 1)) := rfl
            rw [htf] at hc
            simp only [Option.toList_some, List.mem_singleton] at hc
            exact absurd hc hne
          · obtain ⟨l, hl, hc⟩ := List.mem_filterMap.1 hc
            exact List.mem_append_right _ (List.mem_filterMap.2 ⟨l, mem_picked hl, hc⟩)
      have H3 : ∀ n, c + 1 < n → NameOK e.ops q.inputs (genName n) := by
        rw [hqi]; exact fun n hn' => hn n (by omega)
      have H4 : todo q.rules (i + 1) ≤ m - 1 := by
        have hde : (p.rules.eraseIdx i).drop i = p.rules.drop (i + 1) := by
          rw [List.eraseIdx_eq_take_drop_succ, List.drop_left' (by rw [List.length_take]; omega)]
        have : todo q.rules (i + 1) ≤ todo p.rules (i + 1) + r'.body.length := by
          unfold todo
          rw [g2, List.drop_succ_cons, List.drop_append_of_le_length (by rw [List.length_eraseIdx_of_lt hi]; omega),
            List.map_append, List.sum_append, hde]
          simp only [List.map_cons, List.map_nil, List.sum_cons, List.sum_nil]
          have : tmp.body.length ≤ r'.body.length - 1 := hpl
          omega
        omega
      obtain ⟨out, h⟩ := binLoop_total hx he hinf (m - 1) q (c + 1) (i + 1) (hook_named hp hh) H1 H2 H3 H4
      refine ⟨out, (h.and ⟨f0, hf0⟩).mono fun f hf g hg => ?_⟩
      obtain ⟨g, rfl⟩ : ∃ g', g = g' + 1 := ⟨g - 1, by omega⟩
      simp only [binLoop, hr, if_pos hlen, hf.2]
      exact hf.1 g (by omega)
termination_by m _ _ _ _ _ _ _ hm => m
decreasing_by all_goals omega

/-- **C35 (binarize returns).**  If names generated from now on are unused, `binarize` terminates without an exception. -/
theorem C35_binarize_returns {e : Env W S'} (hx : Exact e.o) (he : Lists e.ord) (hinf : e.inf = infty) {p : Prog W} {c : Nat}
    (hp : ∀ r ∈ p.rules, NamedRule r) (hk : ∀ r ∈ p.rules, Below e.k r) (hs : ∀ n, c < n → genName n ∉ syms p)
    (hn : ∀ n, c < n → NameOK e.ops p.inputs (genName n)) :
    ∃ q c', Evt (fun f => binarize f e p c = some (q, c')) := by
  obtain ⟨out, h⟩ := binLoop_total hx he hinf _ p c 0 hp hk hs hn (le_refl _)
  refine ⟨out.1, out.2, ?_⟩
  obtain ⟨f0, hf0⟩ := h
  exact ⟨max f0 (todo p.rules 0 + 1), fun f hf => hf0 f (le_trans (le_max_left _ _) hf) f (lt_of_lt_of_le (Nat.lt_succ_self _) (le_trans (le_max_right _ _) hf))⟩

/-! ### Examples -/
section Examples
open Unfold (at' ltOps)
open Fold (variantOps)

/-- `goal(X) += e(X,Y) * g(Y,Z) * h(Z)` -/
def hookP : Prog TV := ⟨[⟨at' "goal" [.var 0], [.sub (at' "e" [.var 0, .var 1]), .sub (at' "g" [.var 1, .var 2]), .sub (at' "h" [.var 2])]⟩],
  [at' "e" [.var 5, .var 6]]⟩

/-- the environment in which the theorems say that `hook` returns -/
noncomputable def hookE : Env TV Unit := ⟨variantOps, ltOps, infty, 10, fun s => s.sort (· ≤ ·)⟩

theorem hookE_lists : Lists hookE.ord := fun s => by simp [hookE]

theorem hookE_exact : Exact hookE.o := ⟨Fold.variantOps_faithful.lawful, fun r s => by simp [hookE, variantOps]⟩

theorem hookP_named : ∀ r ∈ hookP.rules, NamedRule r := by
  intro r hr
  simp only [hookP, List.mem_singleton] at hr
  subst hr
  refine ⟨⟨_, _, rfl⟩, fun t ht => ?_⟩
  simp only [List.mem_cons, Lit.sub.injEq, List.not_mem_nil, or_false] at ht
  rcases ht with rfl | rfl | rfl <;> exact ⟨_, _, rfl⟩

/-- generated names start with `$gen` -/
theorem genName_ne {n : Nat} {s : String} (h : ¬ ['$', 'g', 'e', 'n'] <+: s.toList) : genName n ≠ .str s := by
  intro e
  simp only [genName, Const.str.injEq] at e
  rw [← e, String.toList_append] at h
  exact h ⟨n.repr.toList, by simp⟩

theorem genName_modelled (n : Nat) : unmodelled (genName n) = false := by
  simp only [unmodelled, Bool.or_eq_false_iff, beq_eq_false_iff_ne]
  exact ⟨⟨genName_ne (by decide), genName_ne (by decide)⟩, genName_ne (by decide)⟩

/-- `binarize` turns it into a program with two subgoals per rule and the same values -/
example : ∃ q c', Evt (fun f => binarize f hookE hookP 0 = some (q, c')) ∧
    Conservative (Gen 0 c') hookP.rules q.rules ∧ SameLeast (Gen 0 c') hookP.rules q.rules ∧ ∀ r ∈ q.rules, r.body.length ≤ 2 := by
  obtain ⟨q, c', h⟩ := C35_binarize_returns (e := hookE) (p := hookP) (c := 0) hookE_exact hookE_lists rfl hookP_named
    (by intro r hr n hn; simp only [hookP, List.mem_singleton] at hr; subst hr; revert n; decide)
    (fun n hn hc => by
      have : syms hookP = [.str "goal", .str "e", .str "g", .str "h"] := by decide
      rw [this] at hc
      simp only [List.mem_cons, List.not_mem_nil, or_false] at hc
      rcases hc with h | h | h | h <;> exact genName_ne (by decide) h)
    (fun n hn => ⟨by
        have : genName n ≠ .str "<" := genName_ne (by decide)
        simp [hookE, ltOps, this], genName_ne (by decide), genName_modelled n, fun t ht => by
        simp only [hookP, List.mem_singleton] at ht
        subst ht
        exact avoids_of_ne ⟨_, _, rfl⟩ fun h => genName_ne (n := n) (s := "e") (by decide) (Option.some.inj h).symm⟩)
  obtain ⟨f, hf⟩ := h
  have h1 := C35_binarize hookE_lists hookP_named (hf f (le_refl _))
  exact ⟨q, c', ⟨f, hf⟩, h1.1, C35_binarize_least hookE_lists hookP_named (hf f (le_refl _)), h1.2⟩

/-- a run: `a += b * c * d` becomes `a += $gen1 * d`, `$gen1 += b * c` -/
def propP : Prog TV := ⟨[⟨at' "a" [], [.sub (at' "b" []), .sub (at' "c" []), .sub (at' "d" [])]⟩], []⟩
def propE : Env TV Unit := ⟨Fold.eqOps, ltOps, .t, 0, fun s => s.sort (· ≤ ·)⟩

example : (hook 9 propE propP 0 0 [0, 1]).map (fun q => (q.1.rules, q.2)) =
    some ([⟨at' "a" [], [.sub (at' "$gen1" []), .sub (at' "d" [])]⟩, ⟨at' "$gen1" [], [.sub (at' "b" []), .sub (at' "c" [])]⟩], 1) := by
  decide +kernel

/-- repeating a subgoal is rejected by the check -/
example : (hook 9 propE propP 0 0 [0, 0]).isNone = true := by
  decide +kernel

end Examples

end Hook
end Verif
