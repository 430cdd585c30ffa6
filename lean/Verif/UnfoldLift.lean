/-
Unfolding seen in another semiring: what the rules made by `unfold` contribute when the values in rule bodies are
mapped into another semiring and every rule carries a weight that depends on the definition it came from.
This is used for the measures of fold/unfold safety (`Verif.MeasureThm`).
-/
import Verif.UnfoldThm
import Verif.Conserv

set_option linter.unusedSectionVars false
set_option linter.unusedSimpArgs false

namespace Verif
open Tm Heap Sem
open Solver (noHeap forEach good_noHeap respects_noHeap)

namespace Unfold
variable {W W' : Type}

/-- apply `φ` to the values in a rule -/
def mapLit (φ : W → W') : Lit W → Lit W'
  | .val k => .val (φ k)
  | .sub t => .sub t
def mapRule (φ : W → W') (r : WRule W) : WRule W' := ⟨r.head, r.body.map (mapLit φ)⟩

theorem litVars_map (φ : W → W') (l : Lit W) : litVars (mapLit φ l) = litVars l := by cases l <;> rfl

theorem bodyVars_map (φ : W → W') (b : List (Lit W)) : bodyVars (b.map (mapLit φ)) = bodyVars b := by
  induction b with
  | nil => rfl
  | cons l b ih => simp only [List.map_cons, bodyVars, litVars_map, ih]

theorem rvars_map (φ : W → W') (r : WRule W) : rvars (mapRule φ r) = rvars r := by
  simp only [rvars, mapRule, bodyVars_map]

theorem mapRule_ren (φ : W → W') (ρ : Nat → Nat) (r : WRule W) : mapRule φ (renRule ρ r) = renRule ρ (mapRule φ r) := by
  simp only [mapRule, renRule, List.map_map, WRule.mk.injEq, true_and]
  exact List.map_congr_left fun l _ => by cases l <;> rfl

theorem mapRule_sub (φ : W → W') (σ : Nat → Tm) (r : WRule W) : mapRule φ (subRule σ r) = subRule σ (mapRule φ r) := by
  simp only [mapRule, subRule, List.map_map, WRule.mk.injEq, true_and]
  exact List.map_congr_left fun l _ => by cases l <;> rfl

variable [CSemi W] [CSemi W']

/-- the map keeps one and the infinite multiplicity -/
structure Lifting (φ : W → W') : Prop where
  one : φ 1 = 1
  inf : φ infty = infty

theorem contrib_lift_eq (φ : W → W') (r : WRule W) (v : GTm → W') (x : GTm) :
    contrib (mapRule φ r) v x = isum fun a : Asg (rvars r) => if gsub (ext a) r.head = x then bv v (ext a) (r.body.map (mapLit φ)) else 0 := by
  classical
  rw [contrib_eq (rvars_map φ r)]
  rfl

variable [DecidableEq W]

theorem contrib_lift_made {φ : W → W'} (hφ : Lifting φ) (t s : WRule W) (v : GTm → W') (x : GTm) :
    letI := Classical.decEq W'
    contrib (mapRule φ (made infty t s)) v x = contrib (made infty (mapRule φ t) (mapRule φ s)) v x := by
  classical
  unfold made
  rw [rvars_map, rvars_map]
  split
  · rfl
  · have hm : ∀ c : W, mapRule φ ⟨t.head, t.body ++ [.val c]⟩ = ⟨(mapRule φ t).head, (mapRule φ t).body ++ [.val (φ c)]⟩ := fun c => by
      simp only [mapRule, List.map_append, List.map_cons, List.map_nil, mapLit]
    by_cases h1 : (infty : W) = 1
    · have h2 : (infty : W') = 1 := by rw [← hφ.inf, h1, hφ.one]
      rw [if_neg (by simpa using h1), if_neg (by simpa using h2)]
    · rw [if_pos h1, hm, contrib_val, hφ.inf]
      by_cases h2 : (infty : W') = 1
      · rw [if_neg (by simpa using h2), h2, one_mul]
      · rw [if_pos h2, contrib_val]

/-- the shape of a resolvent: instances of the context and of the body of the definition, and perhaps a value -/
def Shape (head : Tm) (L R : List (Lit W)) (s t : WRule W) : Prop :=
  ∃ (σ τ : Nat → Tm) (c : List W), t.head = head.sub σ ∧
    t.body = L.map (subLit σ) ++ s.body.map (subLit τ) ++ R.map (subLit σ) ++ c.map .val

theorem shape_made {head : Tm} {L R : List (Lit W)} {s : WRule W} (σ : Nat → Tm) (s' : WRule W) {ρ : Nat → Nat} (inf : W) :
    Shape head L R s (renRule ρ (made inf (subRule σ ⟨head, L ++ s.body ++ R⟩) s')) := by
  have hc : ∀ l : Lit W, renLit ρ (subLit σ l) = subLit (fun n => (σ n).sub fun m => .var (ρ m)) l := by
    intro l
    cases l with
    | val k => rfl
    | sub t => simp only [renLit, subLit, Tm.sub_sub]
  have hcm : ∀ b : List (Lit W), (b.map (subLit σ)).map (renLit ρ) = b.map (subLit fun n => (σ n).sub fun m => .var (ρ m)) := by
    intro b; rw [List.map_map]; exact List.map_congr_left fun l _ => hc l
  have base : ∀ c : List W, Shape head L R s (renRule ρ ⟨head.sub σ, (L ++ s.body ++ R).map (subLit σ) ++ c.map .val⟩) := by
    intro c
    refine ⟨fun n => (σ n).sub fun m => .var (ρ m), fun n => (σ n).sub fun m => .var (ρ m), c, ?_, ?_⟩
    · simp only [renRule, Tm.sub_sub]
    · simp only [renRule, List.map_append, hcm]
      congr 1
      simp only [List.map_map]
      rfl
  unfold made
  split
  · simpa [subRule] using base []
  · split
    · simpa [subRule] using base [inf]
    · simpa [subRule] using base []

theorem shape_ren {head : Tm} {L R : List (Lit W)} {s t : WRule W} {ρ : Nat → Nat} (h : Shape head L R (renRule ρ s) t) :
    Shape head L R s t := by
  obtain ⟨σ, τ, c, h1, h2⟩ := h
  refine ⟨σ, fun n => (Tm.var (ρ n)).sub τ, c, h1, ?_⟩
  rw [h2]
  congr 3
  simp only [renRule, List.map_map]
  refine List.map_congr_left fun l _ => ?_
  cases l with
  | val k => rfl
  | sub t => simp only [Function.comp, renLit, subLit, Tm.sub_sub]

/-- what the loop body does when it is reached after unifying `x` and `y` -/
theorem unify_resolvent_lift {V : Finset Nat} {x y : Tm} (hx : vars x ⊆ V) (hy : vars y ⊆ V) {head : Tm} {L R : List (Lit W)} {s : WRule W}
    (ht : rvars ⟨head, L ++ s.body ++ R⟩ ⊆ V) (hs' : rvars s ⊆ V)
    (hV : ∀ bs, Spec noHeap x y (some bs) → ∀ n ∈ V, bindAll noHeap bs n = none →
      n ∈ rvars (subRule (res (bindAll noHeap bs)) ⟨head, L ++ s.body ++ R⟩) ∨ n ∈ rvars (subRule (res (bindAll noHeap bs)) s))
    (i : Option Nat) (st : US W) :
    ∃ out k', Evt (fun f => unifyF f x y (resolvent f infty head L R s i) noHeap st = some (noHeap, ⟨st.out ++ out, k'⟩, .done)) ∧
      st.k ≤ k' ∧ (∀ t ∈ out, Below k' t.1 ∧ t.2 = i ∧ Shape head L R s t.1) ∧ out.length ≤ 1 ∧
      ∀ (W' : Type) [CSemi W'] (φ : W → W'), Lifting φ → ∀ v z, T (out.map fun t => mapRule φ t.1) v z =
        isum fun a : Asg V => if gsub (ext a) x = gsub (ext a) y then
        (if gsub (ext a) head = z then bv v (ext a) ((L ++ s.body ++ R).map (mapLit φ)) else 0) else 0 := by
  obtain ⟨r, hs, he⟩ := unify_result good_noHeap x y
  cases r with
  | none =>
    refine ⟨[], st.k, he.mono fun f e => ?_, le_refl _, by simp, by simp, fun W' _ φ hφ v z => ?_⟩
    · rw [e]; simp [run]
    · rw [isum_no_unifier hs (fun θ => if gsub θ head = z then bv v θ ((L ++ s.body ++ R).map (mapLit φ)) else 0)]; rfl
  | some bs =>
    have hspec := hs
    cases hs with
    | ok _ hg hr hn hd hv =>
    set t' := made infty (subRule (res (bindAll noHeap bs)) ⟨head, L ++ s.body ++ R⟩) (subRule (res (bindAll noHeap bs)) s) with ht'
    obtain ⟨ρ, hρ1, hρ2, hρ3, hρ4⟩ := freshR_spec st.k t'
    have hu : unbindAll bs (bindAll noHeap bs) = noHeap := unbindAll_bindAll hn fun p _ => rfl
    refine ⟨[((freshR st.k t').1, i)], (freshR st.k t').2, ?_, hρ4, ?_, by simp, fun W' _ φ hφ v z => ?_⟩
    · refine (he.and (resolvent_evt hg infty head L R s i)).mono fun f e => ?_
      rw [e.1]
      simp only [run, e.2, hu]
      rfl
    · intro t ht
      simp only [List.mem_singleton] at ht
      subst ht
      refine ⟨?_, rfl, ?_⟩
      · intro n hn
        simp only [hρ1, rvars_renRule, Finset.mem_image] at hn
        obtain ⟨m, hm, rfl⟩ := hn
        exact (hρ3 m hm).2
      · rw [hρ1, ht']
        exact shape_made _ _ _
    · simp only [List.map_cons, List.map_nil, T_cons, T_nil, add_zero]
      rw [hρ1, mapRule_ren, contrib_ren (by rw [rvars_map]; exact hρ2), ht', contrib_lift_made (φ := φ) hφ, mapRule_sub, mapRule_sub]
      have hVm : ∀ n ∈ V, bindAll noHeap bs n = none → n ∈ rvars (subRule (res (bindAll noHeap bs)) (mapRule φ ⟨head, L ++ s.body ++ R⟩)) ∨
          n ∈ rvars (subRule (res (bindAll noHeap bs)) (mapRule φ s)) := by
        intro n hn hb
        rw [← mapRule_sub, ← mapRule_sub, rvars_map, rvars_map]
        exact hV bs hspec n hn hb
      letI := Classical.decEq W'
      have := contrib_made hx hy hspec (t := mapRule φ ⟨head, L ++ s.body ++ R⟩) (s := mapRule φ s)
        (by rw [rvars_map]; exact ht) (by rw [rvars_map]; exact hs') hVm v z
      exact this

theorem tryRule_lift {K : Nat} {head : Tm} {L : List (Lit W)} {q : Tm} {R : List (Lit W)}
    (hr : Below K (⟨head, L ++ .sub q :: R⟩ : WRule W)) (s : WRule W) (i : Nat) (st : US W) (hK : K ≤ st.k) :
    ∃ out k', Evt (fun f => tryRule f q (resolvent f infty head L R) (s, i) noHeap st = some (noHeap, ⟨st.out ++ out, k'⟩, .done)) ∧
      st.k ≤ k' ∧ (∀ t ∈ out, Below k' t.1 ∧ t.2 = some i ∧ Shape head L R s t.1) ∧ out.length ≤ 1 ∧
      ∀ (W' : Type) [CSemi W'] (φ : W → W'), Lifting φ → ∀ v x, T (out.map fun t => mapRule φ t.1) v x =
        contribAt head (L.map (mapLit φ)) q (R.map (mapLit φ)) v (contrib (mapRule φ s) v) x := by
  classical
  obtain ⟨ρ, hρ1, hρ2, hρ3, hρ4⟩ := freshR_spec st.k s
  set s' := (freshR st.k s).1 with hs'
  set Vr := rvars (⟨head, L ++ .sub q :: R⟩ : WRule W) with hVr
  have hVs : ∀ n ∈ rvars s', st.k ≤ n := by
    intro n hn
    rw [hρ1, rvars_renRule, Finset.mem_image] at hn
    obtain ⟨m, hm, rfl⟩ := hn
    exact (hρ3 m hm).1
  have hdis : Disjoint Vr (rvars s') := by
    rw [Finset.disjoint_left]
    intro n h1 h2
    have := hr n h1
    have := hVs n h2
    omega
  have hq : vars q ⊆ Vr := by
    intro n hn
    simp only [hVr, rvars, bodyVars_append, bodyVars, litVars, Finset.mem_union]
    exact .inr (.inr (.inl hn))
  have hh : vars head ⊆ Vr := by
    intro n hn; simp only [hVr, rvars, Finset.mem_union]; exact .inl hn
  have hL : bodyVars L ⊆ Vr := by
    intro n hn
    simp only [hVr, rvars, bodyVars_append, bodyVars, litVars, Finset.mem_union]
    exact .inr (.inl hn)
  have hR : bodyVars R ⊆ Vr := by
    intro n hn
    simp only [hVr, rvars, bodyVars_append, bodyVars, litVars, Finset.mem_union]
    exact .inr (.inr (.inr hn))
  have hsh : vars s'.head ⊆ rvars s' := by intro n hn; simp only [rvars, Finset.mem_union]; exact .inl hn
  have hsb : bodyVars s'.body ⊆ rvars s' := by intro n hn; simp only [rvars, Finset.mem_union]; exact .inr hn
  have ht : rvars (⟨head, L ++ s'.body ++ R⟩ : WRule W) ⊆ Vr ∪ rvars s' := by
    intro n hn
    simp only [rvars, bodyVars_append, Finset.mem_union] at hn
    rw [Finset.mem_union]
    rcases hn with h | (h | h) | h
    · exact .inl (hh h)
    · exact .inl (hL h)
    · exact .inr (hsb h)
    · exact .inl (hR h)
  obtain ⟨out, k', h1, h2, h3, h4, h5⟩ := unify_resolvent_lift (V := Vr ∪ rvars s') (x := s'.head) (y := q)
    (head := head) (L := L) (R := R) (s := s')
    (fun n hn => Finset.mem_union_right _ (hsh hn)) (fun n hn => Finset.mem_union_left _ (hq hn)) ht Finset.subset_union_right (by
      intro bs hspec n hn hb
      cases hspec with
      | ok _ hg hr' hn' hd hv =>
      have heq : s'.head.sub (res (bindAll noHeap bs)) = q.sub (res (bindAll noHeap bs)) := ((hr' _).1 hg.respects_res).2
      have hself : n ∈ vars (res (bindAll noHeap bs) n) := by rw [res_unbound hb]; simp
      rcases Finset.mem_union.1 hn with h | h
      · simp only [hVr, rvars, bodyVars_append, bodyVars, litVars, Finset.mem_union] at h
        rcases h with h | h | h | h
        · exact .inl (mem_rvars_sub.2 ⟨n, by simp only [rvars, Finset.mem_union]; exact .inl h, hself⟩)
        · exact .inl (mem_rvars_sub.2 ⟨n, by simp only [rvars, bodyVars_append, Finset.mem_union]; exact .inr (.inl (.inl h)), hself⟩)
        · right
          have : n ∈ vars (q.sub (res (bindAll noHeap bs))) := mem_vars_sub.2 ⟨n, h, hself⟩
          rw [← heq] at this
          simp only [rvars, subRule, Finset.mem_union]
          exact .inl this
        · exact .inl (mem_rvars_sub.2 ⟨n, by simp only [rvars, bodyVars_append, Finset.mem_union]; exact .inr (.inr h), hself⟩)
      · exact .inr (mem_rvars_sub.2 ⟨n, h, hself⟩))
    (some i) { st with k := (freshR st.k s).2 }
  refine ⟨out, k', h1, le_trans hρ4 h2, fun t ht => ⟨(h3 t ht).1, (h3 t ht).2.1, shape_ren (hρ1 ▸ (h3 t ht).2.2)⟩, h4,
    fun W' _ φ hφ v x => ?_⟩
  rw [h5 W' φ hφ]
  have hc : ∀ y, contrib (mapRule φ s) v y = contrib (mapRule φ s') v y := fun y => by
    rw [hρ1, mapRule_ren, contrib_ren (by rw [rvars_map]; exact hρ2)]
  rw [show contrib (mapRule φ s) v = contrib (mapRule φ s') v from funext hc]
  have hVm : rvars (⟨head, L.map (mapLit φ) ++ .sub q :: R.map (mapLit φ)⟩ : WRule W') = Vr := by
    rw [hVr, ← rvars_map φ]
    simp [mapRule, mapLit]
  have step : contribAt head (L.map (mapLit φ)) q (R.map (mapLit φ)) v (contrib (mapRule φ s') v) x =
      isum fun a : Asg Vr => isum fun b : Asg (rvars s') =>
      if gsub (ext b) s'.head = gsub (ext a) q then
        (if gsub (ext a) head = x then bv v (ext a) (L.map (mapLit φ)) * bv v (ext b) (s'.body.map (mapLit φ)) * bv v (ext a) (R.map (mapLit φ)) else 0) else 0 := by
    unfold contribAt
    rw [hVm]
    refine isum_congr fun a => ?_
    rw [contrib_lift_eq]
    split
    · rw [mul_isum, isum_mul]
      refine isum_congr fun b => ?_
      split
      · rfl
      · simp
    · exact ((isum_congr fun b => by simp).trans isum_zero).symm
  rw [step, ← isum_union hdis]
  refine isum_congr fun c => ?_
  have c1 : ∀ n ∈ Vr, ext (cut Vr (ext c)) n = ext c n := fun n hn => ext_cut hn
  have c2 : ∀ n ∈ rvars s', ext (cut (rvars s') (ext c)) n = ext c n := fun n hn => ext_cut hn
  rw [gsub_congr (t := s'.head) (fun n hn => c2 n (hsh hn)), gsub_congr (t := q) (fun n hn => c1 n (hq hn)),
    gsub_congr (t := head) (fun n hn => c1 n (hh hn)),
    bv_congr (b := L.map (mapLit φ)) (fun n hn => c1 n (hL (by rwa [bodyVars_map] at hn))),
    bv_congr (b := R.map (mapLit φ)) (fun n hn => c1 n (hR (by rwa [bodyVars_map] at hn))),
    bv_congr (b := s'.body.map (mapLit φ)) (fun n hn => c2 n (hsb (by rwa [bodyVars_map] at hn))), List.map_append, List.map_append,
    bv_append, bv_append]

/-- the weighted sum of the contributions of numbered rules -/
noncomputable def Tw {ι : Type} (φ : W → W') (w : ι → W') (l : List (WRule W × ι)) (v : GTm → W') (x : GTm) : W' :=
  (l.map fun t => w t.2 * contrib (mapRule φ t.1) v x).sum

omit [DecidableEq W] in
theorem Tw_nil {ι : Type} (φ : W → W') (w : ι → W') (v : GTm → W') (x : GTm) : Tw φ w [] v x = 0 := rfl
omit [DecidableEq W] in
theorem Tw_cons {ι : Type} (φ : W → W') (w : ι → W') (t : WRule W × ι) (l : List (WRule W × ι)) (v : GTm → W') (x : GTm) :
    Tw φ w (t :: l) v x = w t.2 * contrib (mapRule φ t.1) v x + Tw φ w l v x := by simp [Tw]
omit [DecidableEq W] in
theorem Tw_append {ι : Type} (φ : W → W') (w : ι → W') (l m : List (WRule W × ι)) (v : GTm → W') (x : GTm) :
    Tw φ w (l ++ m) v x = Tw φ w l v x + Tw φ w m v x := by simp [Tw]

theorem contribAt_smul (head : Tm) (L : List (Lit W')) (q : Tm) (R : List (Lit W')) (v u : GTm → W') (c : W') (x : GTm) :
    contribAt head L q R v (fun y => c * u y) x = c * contribAt head L q R v u x := by
  unfold contribAt
  rw [mul_isum]
  refine isum_congr fun a => ?_
  split
  · ring
  · simp

theorem loop_lift {K : Nat} {head : Tm} {L : List (Lit W)} {q : Tm} {R : List (Lit W)}
    (hr : Below K (⟨head, L ++ .sub q :: R⟩ : WRule W)) : ∀ (ds : List (WRule W × Nat)) (st : US W), K ≤ st.k →
    ∃ out k', Evt (fun f => forEach ds (tryRule f q (resolvent f infty head L R)) noHeap st = some (noHeap, ⟨st.out ++ out, k'⟩, .done)) ∧
      st.k ≤ k' ∧ (∀ t ∈ out, Below k' t.1 ∧ ∃ s i, t.2 = some i ∧ (s, i) ∈ ds ∧ Shape head L R s t.1) ∧
      (out.map Prod.snd).Sublist (ds.map fun d => some d.2) ∧
      ∀ (W' : Type) [CSemi W'] (φ : W → W'), Lifting φ → ∀ (w : Option Nat → W') v x, Tw φ w out v x =
        contribAt head (L.map (mapLit φ)) q (R.map (mapLit φ)) v (Tw φ (fun i => w (some i)) ds v) x
  | [], st, _ => ⟨[], st.k, .of_all fun f => by simp [forEach], le_refl _, by simp, by simp, fun W' _ φ hφ w v x => by
      rw [show Tw φ (fun i => w (some i)) ([] : List (WRule W × Nat)) v = fun _ => 0 from rfl, contribAt_zero]; rfl⟩
  | (s, i) :: ds, st, hK => by
    obtain ⟨o1, k1, a1, a2, a3, a4, a5⟩ := tryRule_lift hr s i st hK
    obtain ⟨o2, k2, b1, b2, b3, b4, b5⟩ := loop_lift hr ds ⟨st.out ++ o1, k1⟩ (le_trans hK a2)
    refine ⟨o1 ++ o2, k2, (a1.and b1).mono fun f e => ?_, le_trans a2 b2, ?_, ?_, fun W' _ φ hφ w v x => ?_⟩
    · simp only [forEach, e.1, e.2, List.append_assoc]
    · intro t ht
      rcases List.mem_append.1 ht with h | h
      · exact ⟨fun n hn => lt_of_lt_of_le ((a3 t h).1 n hn) b2, s, i, (a3 t h).2.1, by simp, (a3 t h).2.2⟩
      · obtain ⟨c1, s', i', c2, c3, c4⟩ := b3 t h
        exact ⟨c1, s', i', c2, List.mem_cons_of_mem _ c3, c4⟩
    · simp only [List.map_append, List.map_cons]
      have : (o1.map Prod.snd).Sublist [some i] := by
        match o1, a3, a4 with
        | [], _, _ => simp
        | [t], a3, _ => simp [(a3 t (by simp)).2.1]
        | _ :: _ :: _, _, a4 => simp at a4
      exact this.append b4
    · have h1 : Tw φ w o1 v x = w (some i) * T (o1.map fun t => mapRule φ t.1) v x := by
        have : ∀ l : List (WRule W × Option Nat), (∀ t ∈ l, t.2 = some i) → Tw φ w l v x = w (some i) * T (l.map fun t => mapRule φ t.1) v x := by
          intro l
          induction l with
          | nil => intro _; simp [Tw, T]
          | cons t l ih =>
            intro hl
            rw [Tw_cons, List.map_cons, T_cons, ih fun t ht => hl t (List.mem_cons_of_mem _ ht), hl t (by simp), mul_add]
        exact this o1 fun t ht => (a3 t ht).2.1
      rw [Tw_append, h1, a5 W' φ hφ, b5 W' φ hφ, ← contribAt_smul, ← contribAt_add]
      exact contribAt_congr (fun θ => (Tw_cons φ (fun i => w (some i)) (s, i) ds v _).symm) x

/-- rules whose head has another functor do not matter -/
theorem offers_Tw {c : Const} {as : List Tm} (ds : List (WRule W)) (hd : ∀ s ∈ ds, ∃ c as, s.head = .app (.con c :: as)) (θ : Nat → GTm)
    (φ : W → W') (w : Nat → W') (v : GTm → W') :
    Tw φ w (offers ds c) v (gsub θ (.app (.con c :: as))) = Tw φ w ds.zipIdx v (gsub θ (.app (.con c :: as))) := by
  have key : ∀ (l : List (WRule W × Nat)), (∀ s ∈ l, ∃ c as, s.1.head = .app (.con c :: as)) →
      Tw φ w (l.filter fun ir => hfn ir.1.head == some c) v (gsub θ (.app (.con c :: as))) =
        Tw φ w l v (gsub θ (.app (.con c :: as))) := by
    intro l
    induction l with
    | nil => intro _; rfl
    | cons a l ih =>
      intro hl
      have ih := ih fun s hs => hl s (List.mem_cons_of_mem _ hs)
      rw [List.filter_cons]
      split
      · simp only [Tw_cons, ih]
      · rename_i hne
        rw [ih, Tw_cons, contrib_zero, mul_zero, zero_add]
        intro θ' h
        obtain ⟨c', as', hc⟩ := hl a (by simp)
        simp only [mapRule, hc] at h
        have := congrArg Subtype.val h
        simp only [gsub, sub_app, List.map_cons, sub_con, Tm.app.injEq, List.cons.injEq, Tm.con.injEq] at this
        apply hne
        simp [hc, hfn, this.1]
  refine key ds.zipIdx fun s hs => hd s.1 ?_
  have := List.mem_map_of_mem (f := Prod.fst) hs
  simpa using this

/-- **Unfolding with weights.**  For a subgoal `q` that is not a builtin: each new rule comes from a definition, and in
whatever semiring rules and weights are read, the new rules weighted by their definitions contribute what the
old rule contributes when the subgoal takes its value from the weighted definitions. -/
theorem unfold_lift {ops : Ops} {k : Nat} {p d : Prog W} {i j : Nat} {r : WRule W} {q : Tm} (h : Pre ops k p d i j r q)
    (hq : UserHead ops q) :
    ∃ new k', Evt (fun f => unfold f ops infty k p d i j = some (p.rules.erase r ++ new.map Prod.fst, ⟨new, k'⟩, .done)) ∧
      k ≤ k' ∧ (∀ t ∈ new, Below k' t.1) ∧
      (∀ t ∈ new, ∃ n s, t.2 = some n ∧ d.rules[n]? = some s ∧ Shape r.head (r.body.take j) (r.body.drop (j + 1)) s t.1) ∧
      (new.map Prod.snd).Nodup ∧
      ∀ (W' : Type) [CSemi W'] (φ : W → W'), Lifting φ → ∀ (w : Option Nat → W') v x, Tw φ w new v x =
        contribAt r.head ((r.body.take j).map (mapLit φ)) q ((r.body.drop (j + 1)).map (mapLit φ)) v
          (Tw φ (fun i => w (some i)) d.rules.zipIdx v) x := by
  have hb := split_body h.goal
  have hr : r = ⟨r.head, r.body.take j ++ .sub q :: r.body.drop (j + 1)⟩ := by rw [← hb]
  obtain ⟨c, as, rfl, ho, hc⟩ := hq
  have hun : unmodelled c = false := by
    obtain ⟨c', as', h1, h2, _⟩ := h.kind
    simp only [Tm.app.injEq, List.cons.injEq, Tm.con.injEq] at h1
    rw [h1.1]; exact h2
  obtain ⟨new, k', h1, h2, h3, h4, h5⟩ := loop_lift (K := k) (q := .app (.con c :: as)) (head := r.head)
    (L := r.body.take j) (R := r.body.drop (j + 1)) (hr ▸ h.below) (offers d.rules c) ⟨[], k⟩ (le_refl _)
  have hoff : ∀ s i, (s, i) ∈ offers d.rules c → d.rules[i]? = some s := by
    intro s i hm
    simp only [offers, List.mem_filter] at hm
    exact List.mk_mem_zipIdx_iff_getElem?.1 hm.1
  refine ⟨new, k', ?_, h2, fun t ht => (h3 t ht).1, ?_, ?_, fun W' _ φ hφ w v x => ?_⟩
  · refine (h1.and (isInput_evt h.notInput)).mono fun f e => ?_
    have : lookup f ops d.rules (.app (.con c :: as)) (resolvent f infty r.head (r.body.take j) (r.body.drop (j + 1))) noHeap ⟨[], k⟩ =
        forEach (offers d.rules c) (tryRule f (.app (.con c :: as)) (resolvent f infty r.head (r.body.take j) (r.body.drop (j + 1)))) noHeap ⟨[], k⟩ := by
      simp only [lookup, hun, ho]
      simp only [Bool.false_eq_true, if_false]
      split
      · exact absurd rfl hc
      · rfl
    simp only [unfold, h.rule, h.goal, e.2, this, e.1, List.nil_append]
  · intro t ht
    obtain ⟨_, s, i', c2, c3, c4⟩ := h3 t ht
    exact ⟨i', s, c2, hoff s i' c3, c4⟩
  · refine h4.nodup ?_
    rw [List.nodup_map_iff_inj_on]
    · intro a ha b hb' e
      have e1 := hoff a.1 a.2 ha
      have e2 := hoff b.1 b.2 hb'
      simp only [Option.some.injEq] at e
      rw [e] at e1
      exact Prod.ext (Option.some.inj (e1.symm.trans e2)) e
    · refine List.Nodup.filter _ ?_
      exact List.Nodup.of_map Prod.snd (by rw [List.zipIdx_map_snd]; exact List.nodup_range')
  · rw [h5 W' φ hφ]
    exact contribAt_congr (fun θ => offers_Tw d.rules (fun s hs => by obtain ⟨c, as, h, _⟩ := h.heads s hs; exact ⟨c, as, h⟩) θ φ _ v) x

end Unfold
end Verif
