/-
Property C63: `anti_unifier` and `disjoin` of `Rewrites` (`/repo/dyna/analyze/rewrites.py`).
-/
import Verif.AntiUnify
import Verif.TypeAnThm
import Verif.GeneralizeThm

set_option linter.unusedSectionVars false
set_option linter.unusedSimpArgs false

namespace Verif
namespace AntiUnify
open Tm Heap
open Propagate (eqT fnIs Solution Ground vars_sub_ground eqT_sub)
open Rewrites (Ty Res isApp Den)
open TypeAn (freshT tvars mem_tvars freshT_spec freshT_vars freshT_le den_fresh Cover Fine User)
open Order (Named)

/-- What is assumed of propagation and of `covers`, for constraints without the variables `L` of the rewrite rules:
propagation fails only if there is no solution, and what covers a type contains its items; and `=` is equality. -/
structure Sound (P : Par) (I : Set Tm) (L : Finset Nat) : Prop where
  cp : ∀ k D, (∀ c ∈ D, ∀ n ∈ vars c, n ∉ L) → P.cp k D = some none → ∀ σ, ¬ Solution I D σ
  cov : ∀ k r s, (∀ n ∈ tvars r, n ∉ L) → (∀ n ∈ tvars s, n ∉ L) → P.cov k r s = some true → Den I s ⊆ Den I r
  eq : ∀ a b, vars a = ∅ → vars b = ∅ → (eqT a b ∈ I ↔ a = b)

/-- The heads have a common instance. -/
def Overlap (r s : Ty) : Prop := ∃ θ φ, r.1.sub θ = s.1.sub φ

/-! ### Unifiers -/

theorem mgu_dom {x y : Tm} {f : Nat} {s : Heap} (e : Subst.mguF f (fun _ => none) x y = some (some s)) {n : Nat} {u : Tm}
    (hn : s n = some u) : n ∈ vars x ∪ vars y ∧ vars u ⊆ vars x ∪ vars y := by
  obtain ⟨r0, hs, N, hN⟩ := Subst.mgu_result Subst.good_empty x y
  have h1 := Subst.mgu_mono_le (le_max_left f N) e
  rw [hN _ (le_max_right f N)] at h1
  have h2 := Option.some.inj h1
  have hres : ∀ t : Tm, t.sub (res fun _ => none) = t := fun t => by
    rw [show res (fun _ => none) = Tm.var from funext fun n => res_unbound rfl]; exact sub_id t
  cases hs with
  | fail hf => simp at h2
  | ok bs g1 s1 nd hk hv =>
    simp only [Option.map_some, Option.some.injEq] at h2
    subst h2
    simp only [hres] at hk hv
    have key : ∀ m v, bindAll (fun _ => none) bs m = some v → m ∈ vars x ∪ vars y := by
      intro m v hm
      rcases Solver2.bindAll_some hm with h | h
      · cases h
      · obtain ⟨p, hp, rfl⟩ := List.mem_map.1 h
        exact hk p hp
    refine ⟨key n u hn, fun z hz => ?_⟩
    cases hz' : bindAll (fun _ => none) bs z with
    | some w => exact key z w hz'
    | none =>
      have hr := g1.respects_res n u hn
      have hzz : z ∈ vars ((Tm.var n).sub (res (bindAll (fun _ => none) bs))) := by
        rw [sub_var, hr]
        exact Tm.mem_vars_sub.2 ⟨z, hz, by rw [res_unbound hz']; simp⟩
      obtain ⟨h3, h4⟩ := hv _ _ hzz
      rcases h3 with h3 | h3 | h3
      · simp only [vars_var, Finset.mem_singleton] at h3
        subst h3; exact key _ u hn
      · exact Finset.mem_union_left _ h3
      · exact Finset.mem_union_right _ h3

theorem lt_above {x y : Tm} {n : Nat} (h : n ∈ vars x ∪ vars y) : n < above x y :=
  Nat.lt_of_succ_le (Finset.le_sup (f := (· + 1)) h)

theorem mem_scons {N : Nat} {s : Heap} {c : Tm} : c ∈ scons N s ↔ ∃ n u, n < N ∧ s n = some u ∧ c = eqT (.var n) u := by
  simp only [scons, List.mem_filterMap, List.mem_range, Option.map_eq_some_iff]
  constructor
  · rintro ⟨n, hn, u, hu, rfl⟩; exact ⟨n, u, hn, hu, rfl⟩
  · rintro ⟨n, u, hn, hu, rfl⟩; exact ⟨n, hn, u, hu, rfl⟩

/-- the model of `scons` is complete -/
theorem scons_spec {x y : Tm} {f : Nat} {s : Heap} (e : Subst.mguF f (fun _ => none) x y = some (some s)) :
    Rewrites.Scons s (scons (above x y) s) := by
  intro c
  rw [mem_scons]
  constructor
  · rintro ⟨n, u, _, h, rfl⟩; exact ⟨n, u, h, rfl⟩
  · rintro ⟨n, u, h, rfl⟩; exact ⟨n, u, lt_above (mgu_dom e h).1, h, rfl⟩

theorem scons_vars {x y : Tm} {f : Nat} {s : Heap} (e : Subst.mguF f (fun _ => none) x y = some (some s)) {N : Nat} {c : Tm}
    (hc : c ∈ scons N s) : vars c ⊆ vars x ∪ vars y := by
  obtain ⟨n, u, _, h, rfl⟩ := mem_scons.1 hc
  obtain ⟨h1, h2⟩ := mgu_dom e h
  intro z hz
  simp only [eqT, vars_app, varsL_cons, vars_var, Finset.mem_union, Finset.mem_singleton, varsL_nil, Finset.notMem_empty, or_false] at hz
  rcases hz with hz | rfl | hz
  · simp [Propagate.fnc] at hz
  · exact h1
  · exact h2 hz

/-! ### The anti-unifier -/

section
variable {P : Par} {I : Set Tm} {L : Finset Nat}

/-- If the constraints of a type have no solution on a more general head, the type is empty. -/
theorem onto_none (hs : Sound P I L) {f k : Nat} {r : Ty} {h : Tm} (hr : ∀ n ∈ tvars r, n ∉ L) (hh : ∀ n ∈ vars h, n ∉ L) {l : Nat → Tm}
    (e1 : h.sub l = r.1) (e2 : ∀ n ∈ vars h, n ∈ tvars r → l n = .var n) (e : onto P f k r h = some none) : Den I r = ∅ := by
  classical
  rw [Set.eq_empty_iff_forall_notMem]
  rintro x ⟨σ, hσ, rfl⟩
  unfold onto at e
  split at e
  · rename_i s em
    refine hs.cp k _ ?_ e (fun n => if n ∈ tvars r then σ n else (l n).sub σ) ⟨fun n => ?_, fun c hc => ?_⟩
    · intro c hc n hn
      rcases List.mem_append.1 hc with hc | hc
      · exact hr n (mem_tvars.2 (.inr ⟨c, hc, hn⟩))
      · rcases Finset.mem_union.1 (scons_vars em hc hn) with h | h
        · exact hr n (mem_tvars.2 (.inl h))
        · exact hh n h
    · show vars (if _ then _ else _) = _
      split
      · exact hσ.1 n
      · exact vars_sub_ground hσ.1 _
    · have c1 : ∀ t : Tm, (∀ n ∈ vars t, n ∈ tvars r) → t.sub (fun n => if n ∈ tvars r then σ n else (l n).sub σ) = t.sub σ :=
        fun t ht => sub_congr fun n hn => if_pos (ht n hn)
      rcases List.mem_append.1 hc with hc | hc
      · rw [c1 c fun n hn => mem_tvars.2 (.inr ⟨c, hc, hn⟩)]; exact hσ.2 c hc
      · obtain ⟨n, u, _, hn, rfl⟩ := mem_scons.1 hc
        have hu : r.1.sub (fun n => if n ∈ tvars r then σ n else (l n).sub σ) = h.sub (fun n => if n ∈ tvars r then σ n else (l n).sub σ) := by
          rw [c1 r.1 fun n hn => mem_tvars.2 (.inl hn), ← e1, sub_sub]
          refine sub_congr fun n hn => ?_
          split
          · rename_i hnr; rw [e2 n hn hnr]; simp
          · rfl
        have hg : Ground fun n => if n ∈ tvars r then σ n else (l n).sub σ := fun n => by
          show vars (if _ then _ else _) = _
          split
          · exact hσ.1 n
          · exact vars_sub_ground hσ.1 _
        rw [eqT_sub, sub_var, Rewrites.scons_sat em hu hn]
        exact (hs.eq _ _ (vars_sub_ground hg _) (vars_sub_ground hg _)).2 rfl
  · cases e

/-- Constraints over the variables of the head that hold one by one hold together. -/
theorem combine {r : Ty} {h : Tm} {l : Nat → Tm} (e1 : h.sub l = r.1) {body : List Tm}
    (hb : ∀ A ∈ body, vars A ⊆ vars h ∧ Den I r ⊆ Den I (h, [A])) : Den I r ⊆ Den I (h, body) := by
  rintro x ⟨σ, hσ, rfl⟩
  have e3 : r.1.sub σ = h.sub fun n => (l n).sub σ := by rw [← e1, sub_sub]
  refine ⟨fun n => (l n).sub σ, ⟨fun n => vars_sub_ground hσ.1 _, fun A hA => ?_⟩, e3⟩
  obtain ⟨h1, h2⟩ := hb A hA
  obtain ⟨τ, h3, h4⟩ := h2 ⟨σ, hσ, rfl⟩
  have h5 := sub_eq_on_vars (h4.symm.trans e3)
  rw [← sub_congr fun n hn => h5 n (h1 hn)]
  exact h3.2 A (by simp)

theorem keep_spec {k : Nat} {h : Tm} {r s : Ty} : ∀ {As body : List Tm}, keep P k h r s As = some body →
    ∀ A ∈ body, A ∈ As ∧ P.cov k (h, [A]) r = some true ∧ P.cov k (h, [A]) s = some true
  | [], body, e => by cases e; simp
  | A :: As, body, e => by
    rw [keep] at e
    split at e
    · cases e
    · exact fun B hB => let ⟨h1, h2⟩ := keep_spec e B hB; ⟨List.mem_cons_of_mem _ h1, h2⟩
    · rename_i e1
      split at e
      · cases e
      · exact fun B hB => let ⟨h1, h2⟩ := keep_spec e B hB; ⟨List.mem_cons_of_mem _ h1, h2⟩
      · rename_i e2
        obtain ⟨b, hb, rfl⟩ := Option.map_eq_some_iff.1 e
        intro B hB
        rcases List.mem_cons.1 hB with rfl | hB
        · exact ⟨List.mem_cons_self, e1, e2⟩
        · exact let ⟨h1, h2⟩ := keep_spec hb B hB; ⟨List.mem_cons_of_mem _ h1, h2⟩

theorem named_ren {t : Tm} (ρ : Nat → Nat) (h : Named t) : Named (t.sub fun n => .var (ρ n)) := by
  induction h with
  | var n => exact .var _
  | con c => exact .con _
  | app c as _ ih =>
    rw [sub_app, List.map_cons, sub_con]
    exact .app _ _ fun t ht => by obtain ⟨a, ha, rfl⟩ := List.mem_map.1 ht; exact ih a ha

theorem named_fresh {t : Ty} (k : Nat) (h : Named t.1) : Named (freshT k t).1.1 := by
  obtain ⟨ρ, e, _⟩ := freshT_spec k t
  rw [e]; exact named_ren ρ h

/-- fresh copies of heads with a common instance can be unified -/
theorem overlap_fresh {r s : Ty} (h : Overlap r s) {k k' : Nat} (hk : (freshT k r).2 ≤ k') :
    ∃ θ, (freshT k r).1.1.sub θ = (freshT k' s).1.1.sub θ := by
  classical
  obtain ⟨θ, φ, e⟩ := h
  obtain ⟨ρ, e1, i1, b1, _⟩ := freshT_spec k r
  obtain ⟨ρ', e2, i2, b2, _⟩ := freshT_spec k' s
  have inv : ∀ {V : Finset Nat} {ρ : Nat → Nat}, Set.InjOn ρ V → ∀ σ : Nat → Tm, ∃ τ : Nat → Tm, ∀ n ∈ V, τ (ρ n) = σ n := by
    intro V ρ hi σ
    refine ⟨fun m => if h : ∃ n ∈ V, ρ n = m then σ h.choose else .var m, fun n hn => ?_⟩
    have h : ∃ n' ∈ V, ρ n' = ρ n := ⟨n, hn, rfl⟩
    simp only [h, dite_true]
    rw [hi h.choose_spec.1 hn h.choose_spec.2]
  obtain ⟨τ, ht⟩ := inv i1 θ
  obtain ⟨τ', ht'⟩ := inv i2 φ
  refine ⟨fun n => if n < k' then τ n else τ' n, ?_⟩
  rw [e1, e2]
  simp only [sub_sub, sub_var]
  rw [show (r.1.sub fun n => if ρ n < k' then τ (ρ n) else τ' (ρ n)) = r.1.sub θ from sub_congr fun n hn => by
      have hn' : n ∈ tvars r := mem_tvars.2 (.inl hn)
      rw [if_pos (lt_of_lt_of_le (b1 n hn').2 hk), ht n hn'],
    show (s.1.sub fun n => if ρ' n < k' then τ (ρ' n) else τ' (ρ' n)) = s.1.sub φ from sub_congr fun n hn => by
      have hn' : n ∈ tvars s := mem_tvars.2 (.inl hn)
      rw [if_neg (not_lt.2 (b2 n hn').1), ht' n hn']]
  exact e

theorem hfn_fresh {k : Nat} {t : Ty} : hfn (freshT k t).1.1 = hfn t.1 := by
  obtain ⟨ρ, e, _⟩ := freshT_spec k t
  rw [e]
  show hfn (t.1.sub _) = _
  cases t.1 with
  | var n => rfl
  | con c => rfl
  | app as => cases as with
    | nil => simp [hfn]
    | cons a as => cases a <;> simp [hfn]

theorem hfn_some {t : Tm} {c : Const} (h : hfn t = some c) : ∃ as, t = .app (.con c :: as) := by
  unfold hfn at h
  split at h
  · cases h; exact ⟨_, rfl⟩
  · cases h

theorem hfn_gen {k : Nat} {x y : Tm} {c : Const} (hx : hfn x = some c) (hy : hfn y = some c) (hu : ∃ θ, x.sub θ = y.sub θ) :
    hfn (generalizer id k x y).1 = some c := by
  obtain ⟨as, rfl⟩ := hfn_some hx
  obtain ⟨bs, rfl⟩ := hfn_some hy
  obtain ⟨θ, hθ⟩ := hu
  have hlen : as.length = bs.length := by
    simp only [sub_app, List.map_cons, Tm.app.injEq, List.cons.injEq] at hθ
    simpa using congrArg List.length hθ.2
  unfold generalizer
  rw [traverse.eq_def]
  simp only
  split
  · rfl
  · rw [if_pos ⟨by simp [hlen], by simp⟩]
    have hhead : ∀ g, traverse id (.con c) (.con c) g = (.con c, g) := fun g => by rw [traverse.eq_def]; simp
    simp only [traverseL, hhead, hfn]

/-- **C63, the anti-unifier covers both types**, if their heads have a common instance. -/
theorem C63_anti_unifier (hs : Sound P I L) {f k : Nat} (hL : ∀ n ∈ L, n < k) {r s : Ty} (nr : Named r.1) (ns : Named s.1)
    (ho : Overlap r s) {t : Ty} {k' : Nat} (e : antiUnifier P f k r s = some (t, k')) :
    Den I r ⊆ Den I t ∧ Den I s ⊆ Den I t ∧ Named t.1 ∧ (∀ c, hfn r.1 = some c → hfn s.1 = some c → hfn t.1 = some c) ∧ k ≤ k' ∧ ∀ n ∈ tvars t, k ≤ n ∧ n < k' := by
  have hk1 := freshT_le k r
  have hk2 := freshT_le (freshT k r).2 s
  have v1 := freshT_vars k r
  have nr' := named_fresh k nr
  have ns' := named_fresh (freshT k r).2 ns
  have fr : hfn (freshT k r).1.1 = hfn r.1 := hfn_fresh
  have fs : hfn (freshT (freshT k r).2 s).1.1 = hfn s.1 := hfn_fresh
  have fh : ∀ c, hfn r.1 = some c → hfn s.1 = some c →
      hfn (generalizer id (freshT (freshT k r).2 s).2 (freshT k r).1.1 (freshT (freshT k r).2 s).1.1).1 = some c :=
    fun c h1 h2 => hfn_gen (fr.trans h1) (fs.trans h2) (overlap_fresh ho (le_refl _))
  have v2 := freshT_vars (freshT k r).2 s
  obtain ⟨l, l', m1, m2, m3, m4, m5, m6, m7⟩ := gen_match (fv := id) (fun _ _ h => h) (k := (freshT (freshT k r).2 s).2)
    nr' ns'
    (Finset.disjoint_left.2 fun n h1 h2 => by
      have := (v1 n (mem_tvars.2 (.inl h1))).2
      have := (v2 n (mem_tvars.2 (.inl h2))).1
      omega)
    (fun j hj h => by have := (v1 j (mem_tvars.2 (.inl h))).2; omega)
    (fun j hj h => by have := (v2 j (mem_tvars.2 (.inl h))).2; omega)
    (overlap_fresh ho (le_refl _))
  unfold antiUnifier at e
  simp only at e
  generalize hH : generalizer id (freshT (freshT k r).2 s).2 (freshT k r).1.1 (freshT (freshT k r).2 s).1.1 = H at e m1 m2 m3 m4 m5 m6 m7 fh
  rw [← den_fresh I k r, ← den_fresh I (freshT k r).2 s]
  generalize freshT (freshT k r).2 s = s' at *
  generalize freshT k r = r' at *
  have hLn : ∀ n, k ≤ n → n ∉ L := fun n hn h => absurd (hL n h) (by omega)
  have hH' : ∀ n ∈ vars H.1, k ≤ n ∧ n < H.2 := by
    intro n hn
    rcases m3 n hn with h | h | ⟨j, h1, h2, rfl⟩
    · have := v1 n (mem_tvars.2 (.inl h)); omega
    · have := v2 n (mem_tvars.2 (.inl h)); omega
    · exact ⟨by omega, h2⟩
  have hl : ∀ n ∈ vars H.1, n ∈ tvars r'.1 → l n = .var n := by
    intro n hn hr
    rcases m3 n hn with h | h | ⟨j, h1, h2, rfl⟩
    · exact m4 n hn h
    · have := v1 n hr; have := v2 n (mem_tvars.2 (.inl h)); omega
    · have h5 := (v1 _ hr).2
      omega
  have hl' : ∀ n ∈ vars H.1, n ∈ tvars s'.1 → l' n = .var n := by
    intro n hn hr
    rcases m3 n hn with h | h | ⟨j, h1, h2, rfl⟩
    · have := v2 n hr; have := v1 n (mem_tvars.2 (.inl h)); omega
    · exact m5 n hn h
    · have h5 := (v2 _ hr).2
      omega
  have ar : ∀ n ∈ tvars r'.1, n ∉ L := fun n hn => hLn n (v1 n hn).1
  have as : ∀ n ∈ tvars s'.1, n ∉ L := fun n hn => hLn n (by have := (v2 n hn).1; omega)
  have ah : ∀ n ∈ vars H.1, n ∉ L := fun n hn => hLn n (hH' n hn).1
  split at e
  · cases e
  · cases e
  · rename_i e1 e2
    cases e
    rw [onto_none hs ar ah m1 hl e1]
    refine ⟨Set.empty_subset _, subset_rfl, ns', fun c _ h => fs.trans h, by omega, fun n hn => by have := v2 n hn; omega⟩
  · rename_i e1 e2
    cases e
    rw [onto_none hs as ah m2 hl' e2]
    refine ⟨subset_rfl, Set.empty_subset _, nr', fun c h _ => fr.trans h, by omega, fun n hn => by have := v1 n hn; omega⟩
  · rename_i R S e1 e2
    split at e
    · cases e
    · rename_i body ek
      cases e
      have hb : ∀ A ∈ body, vars A ⊆ vars H.1 ∧ P.cov H.2 (H.1, [A]) r'.1 = some true ∧ P.cov H.2 (H.1, [A]) s'.1 = some true := by
        intro A hA
        obtain ⟨h1, h2⟩ := keep_spec ek A hA
        have h3 := (List.mem_filter.1 h1).2
        simp only [cand, Bool.and_eq_true, decide_eq_true_eq] at h3
        exact ⟨h3.2, h2⟩
      have hv : ∀ A ∈ body, ∀ n ∈ tvars (H.1, [A]), n ∉ L := by
        intro A hA n hn
        rcases mem_tvars.1 hn with h | ⟨c, hc, h⟩
        · exact ah n h
        · simp only [List.mem_singleton] at hc
          subst hc
          exact ah n ((hb _ hA).1 h)
      refine ⟨combine m1 fun A hA => ⟨(hb A hA).1, hs.cov _ _ _ (hv A hA) ar (hb A hA).2.1⟩,
        combine m2 fun A hA => ⟨(hb A hA).1, hs.cov _ _ _ (hv A hA) as (hb A hA).2.2⟩, m6, fh, by omega, fun n hn => ?_⟩
      rcases mem_tvars.1 hn with h | ⟨c, hc, h⟩
      · exact hH' n h
      · exact hH' n ((hb c hc).1 h)

/-! ### Disjoining -/

theorem meets_overlap {f k : Nat} {r s : Ty} (e : meets P f k r s = some true) : Overlap r s := by
  unfold meets at e
  simp only at e
  split at e
  · cases e
  · cases e
  · rename_i σ em
    obtain ⟨θ, _, h, _⟩ := Subst.C05_mgu em
    obtain ⟨ρ, e1, _⟩ := freshT_spec k s
    rw [e1] at h
    simp only [sub_sub] at h
    exact ⟨_, _, h⟩

theorem meetsAny_some {f k : Nat} {r : Ty} : ∀ {ss : List Ty} {s : Ty}, meetsAny P f k r ss = some (some s) →
    s ∈ ss ∧ meets P f k r s = some true
  | [], s, e => by simp [meetsAny] at e
  | a :: ss, s, e => by
    rw [meetsAny] at e
    split at e
    · cases e
    · cases e; exact ⟨List.mem_cons_self, by assumption⟩
    · exact let ⟨h1, h2⟩ := meetsAny_some e; ⟨List.mem_cons_of_mem _ h1, h2⟩

theorem meetsAny_none {f k : Nat} {r : Ty} : ∀ {ss : List Ty}, meetsAny P f k r ss = some none →
    ∀ s ∈ ss, meets P f k r s = some false
  | [], e => by simp
  | a :: ss, e => by
    rw [meetsAny] at e
    split at e
    · cases e
    · cases e
    · intro s hs
      rcases List.mem_cons.1 hs with rfl | hs
      · assumption
      · exact meetsAny_none e s hs

theorem findPair_some {f k : Nat} : ∀ {l : List Ty} {r s : Ty}, findPair P f k l = some (some (r, s)) → l.Nodup →
    r ∈ l ∧ s ∈ l ∧ r ≠ s ∧ meets P f k r s = some true
  | [], r, s, e, _ => by simp [findPair] at e
  | a :: l, r, s, e, nd => by
    rw [findPair] at e
    rw [List.nodup_cons] at nd
    split at e
    · cases e
    · rename_i em
      cases e
      obtain ⟨h1, h2⟩ := meetsAny_some em
      exact ⟨List.mem_cons_self, List.mem_cons_of_mem _ h1, fun h => nd.1 (h ▸ h1), h2⟩
    · obtain ⟨h1, h2, h3⟩ := findPair_some e nd.2
      exact ⟨List.mem_cons_of_mem _ h1, List.mem_cons_of_mem _ h2, h3⟩

theorem findPair_none {f k : Nat} : ∀ {l : List Ty}, findPair P f k l = some none →
    l.Pairwise fun r s => meets P f k r s = some false
  | [], _ => .nil
  | a :: l, e => by
    rw [findPair] at e
    split at e
    · cases e
    · cases e
    · rename_i em
      exact .cons (meetsAny_none em) (findPair_none e)

/-- Every type of the first chart is contained in a type of the second. -/
def Joins (I : Set Tm) (xs ys : List Ty) : Prop := ∀ t ∈ xs, ∃ u ∈ ys, Den I t ⊆ Den I u

theorem loop_spec (hs : Sound P I L) {ord : List Ty → List Ty} (hord : ∀ l, (ord l).Perm l) {f : Nat} :
    ∀ {n k : Nat} {tmp ys : List Ty} {k' : Nat}, (∀ n ∈ L, n < k) → tmp.Nodup → (∀ t ∈ tmp, Named t.1) →
      loop P ord f n k tmp = some (ys, k') →
      Joins I tmp ys ∧ k ≤ k' ∧ ys.Nodup ∧ (∀ t ∈ ys, Named t.1) ∧ ys.length ≤ tmp.length ∧
      (∀ t ∈ ys, t ∈ tmp ∨ ∀ n ∈ tvars t, k ≤ n ∧ n < k') ∧
      (∀ Q : Const → Prop, (∀ t ∈ tmp, ∃ c, hfn t.1 = some c ∧ Q c) → ∀ t ∈ ys, ∃ c, hfn t.1 = some c ∧ Q c) ∧
      findPair P f k' (ord ys) = some none := by
  intro n
  induction n with
  | zero => intro k tmp ys k' _ _ _ e; simp [loop] at e
  | succ n ih =>
    intro k tmp ys k' hL nd hn e
    rw [loop] at e
    split at e
    · cases e
    · rename_i ef
      cases e
      exact ⟨fun t ht => ⟨t, ht, subset_rfl⟩, le_refl _, nd, hn, le_refl _, fun t ht => .inl ht, fun _ h => h, ef⟩
    · rename_i r s ef
      obtain ⟨h1, h2, h3, h4⟩ := findPair_some ef ((hord tmp).nodup_iff.2 nd)
      rw [(hord tmp).mem_iff] at h1 h2
      split at e
      · cases e
      · rename_i t k1 ea
        simp only at e
        have ho := meets_overlap h4
        obtain ⟨a1, a2, a3, a4, a5, a6⟩ := C63_anti_unifier hs hL (hn r h1) (hn s h2) ho ea
        have hk1 := freshT_le k1 t
        have nd2 : ((tmp.erase r).erase s).Nodup := (nd.erase r).erase s
        have hmem : ∀ u, u ∈ ((tmp.erase r).erase s).insert (freshT k1 t).1 ↔ u = (freshT k1 t).1 ∨ (u ≠ s ∧ u ≠ r ∧ u ∈ tmp) := by
          intro u
          rw [List.mem_insert_iff, (nd.erase r).mem_erase_iff, nd.mem_erase_iff]
        have hlen : (((tmp.erase r).erase s).insert (freshT k1 t).1).length < tmp.length := by
          have l1 := List.length_erase_of_mem h1
          have l2 := List.length_erase_of_mem ((nd.mem_erase_iff (a := s) (b := r)).2 ⟨h3.symm, h2⟩)
          have l3 := List.length_pos_of_mem h1
          have l4 := List.length_pos_of_mem ((nd.mem_erase_iff (a := s) (b := r)).2 ⟨h3.symm, h2⟩)
          have l5 : (((tmp.erase r).erase s).insert (freshT k1 t).1).length ≤ ((tmp.erase r).erase s).length + 1 := by
            by_cases hm : (freshT k1 t).1 ∈ (tmp.erase r).erase s
            · rw [List.insert_of_mem hm]; omega
            · rw [List.insert_of_not_mem hm]; simp
          omega
        obtain ⟨b1, b2, b3, b4, b5, b6, b7, b8⟩ := ih (k := (freshT k1 t).2) (fun n hn => by have := hL n hn; omega)
          (nd2.insert) (fun u hu => by
            rcases (hmem u).1 hu with rfl | ⟨_, _, h⟩
            · exact named_fresh k1 a3
            · exact hn u h) e
        refine ⟨fun u hu => ?_, by omega, b3, b4, by omega, fun u hu => ?_, fun Q hQ => b7 Q fun u hu => ?_, b8⟩
        · by_cases hur : u = r
          · subst hur
            obtain ⟨v, hv1, hv2⟩ := b1 (freshT k1 t).1 ((hmem _).2 (.inl rfl))
            rw [den_fresh] at hv2
            exact ⟨v, hv1, a1.trans hv2⟩
          · by_cases hus : u = s
            · subst hus
              obtain ⟨v, hv1, hv2⟩ := b1 (freshT k1 t).1 ((hmem _).2 (.inl rfl))
              rw [den_fresh] at hv2
              exact ⟨v, hv1, a2.trans hv2⟩
            · exact b1 u ((hmem u).2 (.inr ⟨hus, hur, hu⟩))
        · rcases b6 u hu with h | h
          · rcases (hmem u).1 h with rfl | ⟨_, _, h⟩
            · right
              intro m hm
              have := freshT_vars k1 t m hm
              omega
            · exact .inl h
          · right
            intro m hm
            have := h m hm
            omega
        · rcases (hmem u).1 hu with rfl | ⟨_, _, h⟩
          · obtain ⟨c, hc, hq⟩ := hQ r h1
            obtain ⟨c', hc', _⟩ := hQ s h2
            have : c' = c := by
              obtain ⟨θ, φ, hθ⟩ := ho
              obtain ⟨as, ea⟩ := hfn_some hc
              obtain ⟨bs, eb⟩ := hfn_some hc'
              rw [ea, eb] at hθ
              simp only [sub_app, List.map_cons, sub_con, Tm.app.injEq, List.cons.injEq, Tm.con.injEq] at hθ
              exact hθ.1.symm
            subst this
            exact ⟨_, hfn_fresh.trans (a4 _ hc hc'), hq⟩
          · exact hQ u h

/-- **C63, nothing is lost**: every type of `p` is contained in a type of `disjoin(p)`, whatever the iteration order of
sets.  There are no more types than in `p`, and those that are not in `p` have new variables. -/
theorem C63_disjoin (hs : Sound P I L) {ord : List Ty → List Ty} (hord : ∀ l, (ord l).Perm l) {f n k : Nat} (hL : ∀ n ∈ L, n < k)
    {p ys : List Ty} {k' : Nat} (hn : ∀ t ∈ p, Named t.1) (e : disjoin P ord f n k p = some (ys, k')) :
    (∀ t ∈ p, ∃ u ∈ ys, Den I t ⊆ Den I u) ∧ ys.length ≤ p.length ∧ k ≤ k' ∧
      ∀ t ∈ ys, Named t.1 ∧ (t ∈ p ∨ ∀ n ∈ tvars t, k ≤ n ∧ n < k') := by
  obtain ⟨h1, h2, h3, h4, h5, h6, _, _⟩ := loop_spec hs hord hL (List.nodup_dedup p) (fun t ht => hn t (List.mem_dedup.1 ht)) e
  refine ⟨fun t ht => h1 t (List.mem_dedup.2 ht), h5.trans (List.dedup_sublist p).length_le, h2, fun t ht => ⟨h4 t ht, ?_⟩⟩
  exact (h6 t ht).imp (fun h => List.mem_dedup.1 h) id

theorem meets_false (hs : Sound P I L) (hsi : ∀ k R, (∀ n ∈ tvars R, n ∉ L) → P.simp k R = .none → Den I R = ∅) {f k : Nat}
    (hL : ∀ n ∈ L, n < k) {r s : Ty} (hr : ∀ n ∈ tvars r, n ∉ L ∧ n < k) (e : meets P f k r s = some false) :
    Den I r ∩ Den I s = ∅ := by
  rw [Set.eq_empty_iff_forall_notMem]
  rintro x ⟨h1, h2⟩
  rw [← den_fresh I k s] at h2
  have v2 := freshT_vars k s
  unfold meets at e
  simp only at e
  generalize freshT k s = s' at *
  have hd : Rewrites.Disj r s'.1 := by
    intro n a b
    have h3 : n ∈ tvars r := by simpa [tvars] using a
    have h4 : n ∈ tvars s'.1 := by simpa [tvars] using b
    have := (hr n h3).2; have := (v2 n h4).1; omega
  obtain ⟨τ, c1, c2, c3⟩ := Rewrites.common hd h1 h2
  split at e
  · cases e
  · rename_i em
    exact (Subst.C05_fail em).1 rfl ⟨τ, c2.trans c3.symm⟩
  · rename_i σ em
    split at e
    · cases e
    · cases e
    · rename_i es
      have h3 := Rewrites.common_sc hd h1 h2 hs.eq em (scons_spec em)
      rw [hsi _ _ ?_ es] at h3
      · exact h3
      · intro n hn hl
        have hlt := hL n hl
        rcases mem_tvars.1 hn with h | ⟨c, hc, h⟩
        · exact (hr n (mem_tvars.2 (.inl h))).1 hl
        · rcases List.mem_append.1 hc with hc | hc
          · rcases List.mem_append.1 hc with hc | hc
            · exact (hr n (mem_tvars.2 (.inr ⟨c, hc, h⟩))).1 hl
            · have := (v2 n (mem_tvars.2 (.inr ⟨c, hc, h⟩))).1; omega
          · rcases Finset.mem_union.1 (scons_vars em hc h) with h | h
            · exact (hr n (mem_tvars.2 (.inl h))).1 hl
            · have := (v2 n (mem_tvars.2 (.inl h))).1; omega
    · cases e

/-- **C63, the result is disjoint**: no two of its types have an item in common, if `rewrites` returns `None` only for
empty types. -/
theorem C63_disjoint (hs : Sound P I L) (hsi : ∀ k R, (∀ n ∈ tvars R, n ∉ L) → P.simp k R = .none → Den I R = ∅)
    {ord : List Ty → List Ty} (hord : ∀ l, (ord l).Perm l) {f n k : Nat} (hL : ∀ n ∈ L, n < k)
    {p ys : List Ty} {k' : Nat} (hn : ∀ t ∈ p, Named t.1) (hv : ∀ t ∈ p, ∀ n ∈ tvars t, n ∉ L ∧ n < k)
    (e : disjoin P ord f n k p = some (ys, k')) :
    ∀ t ∈ ys, ∀ u ∈ ys, t ≠ u → Den I t ∩ Den I u = ∅ := by
  obtain ⟨_, h2, _, h4, _, h6, _, h8⟩ := loop_spec hs hord hL (List.nodup_dedup p) (fun t ht => hn t (List.mem_dedup.1 ht)) e
  have hv' : ∀ t ∈ ys, ∀ n ∈ tvars t, n ∉ L ∧ n < k' := by
    intro t ht n hn
    rcases h6 t ht with h | h
    · have := hv t (List.mem_dedup.1 h) n hn
      exact ⟨this.1, by omega⟩
    · have := h n hn
      exact ⟨fun hl => absurd (hL n hl) (by omega), this.2⟩
  have hp := findPair_none h8
  have hp2 : (ord ys).Pairwise fun r s => Den I r ∩ Den I s = ∅ :=
    hp.imp_of_mem fun {r s} hr _ h => meets_false hs hsi (fun n hn => by have := hL n hn; omega) (hv' r ((hord ys).mem_iff.1 hr)) h
  intro t ht u hu htu
  have : Std.Symm fun r s : Ty => Den I r ∩ Den I s = ∅ := ⟨fun a b h => by rw [Set.inter_comm]; exact h⟩
  exact hp2.forall ((hord ys).mem_iff.2 ht) ((hord ys).mem_iff.2 hu) htu

/-! ### Termination -/

/-- The calls return. -/
structure Total (P : Par) : Prop where
  cp : ∀ k D, P.cp k D ≠ none
  cov : ∀ k r s, P.cov k r s ≠ none
  simp : ∀ k R, P.simp k R ≠ .oof ∧ P.simp k R ≠ .err

theorem evt_mgu (x y : Tm) : ∃ o, Evt fun f => Subst.mguF f (fun _ => none) x y = some o := by
  obtain ⟨N, hN⟩ := Subst.C05_terminates x y
  cases e : Subst.mguF N (fun _ => none) x y with
  | none => exact absurd e (hN N (le_refl _))
  | some o => exact ⟨o, N, fun f hf => Subst.mgu_mono_le hf e⟩

theorem evt_meets (T : Total P) (k : Nat) (r s : Ty) : ∃ b, Evt fun f => meets P f k r s = some b := by
  obtain ⟨o, N, h⟩ := evt_mgu r.1 (freshT k s).1.1
  cases o with
  | none => exact ⟨false, N, fun f hf => by simp only [meets, h f hf]⟩
  | some σ =>
    cases e : P.simp (freshT k s).2 (r.1, r.2 ++ (freshT k s).1.2 ++ scons (above r.1 (freshT k s).1.1) σ) with
    | oof => exact absurd e (T.simp _ _).1
    | err => exact absurd e (T.simp _ _).2
    | none => exact ⟨false, N, fun f hf => by simp only [meets, h f hf, e]⟩
    | ty _ _ => exact ⟨true, N, fun f hf => by simp only [meets, h f hf, e]⟩

theorem evt_meetsAny (T : Total P) (k : Nat) (r : Ty) : ∀ ss, ∃ o, Evt fun f => meetsAny P f k r ss = some o
  | [] => ⟨none, 0, fun _ _ => rfl⟩
  | s :: ss => by
    obtain ⟨b, N, h⟩ := evt_meets T k r s
    obtain ⟨o, N', h'⟩ := evt_meetsAny T k r ss
    cases b with
    | true => exact ⟨some s, N, fun f hf => by simp only [meetsAny, h f hf]⟩
    | false => exact ⟨o, max N N', fun f hf => by
        simp only [meetsAny, h f ((le_max_left _ _).trans hf), h' f ((le_max_right _ _).trans hf)]⟩

theorem evt_findPair (T : Total P) (k : Nat) : ∀ l, ∃ o, Evt fun f => findPair P f k l = some o
  | [] => ⟨none, 0, fun _ _ => rfl⟩
  | r :: rs => by
    obtain ⟨b, N, h⟩ := evt_meetsAny T k r rs
    obtain ⟨o, N', h'⟩ := evt_findPair T k rs
    cases b with
    | some s => exact ⟨some (r, s), N, fun f hf => by simp only [findPair, h f hf]⟩
    | none => exact ⟨o, max N N', fun f hf => by
        simp only [findPair, h f ((le_max_left _ _).trans hf), h' f ((le_max_right _ _).trans hf)]⟩

theorem evt_onto (T : Total P) (k : Nat) {r : Ty} {h : Tm} (hu : ∃ θ, r.1.sub θ = h.sub θ) : ∃ o, Evt fun f => onto P f k r h = some o := by
  obtain ⟨o, N, hN⟩ := evt_mgu r.1 h
  cases o with
  | none => exact absurd hu ((Subst.C05_fail (hN N (le_refl _))).1 rfl)
  | some σ =>
    cases e : P.cp k (r.2 ++ scons (above r.1 h) σ) with
    | none => exact absurd e (T.cp _ _)
    | some o => exact ⟨o, N, fun f hf => by simp only [onto, hN f hf, e]⟩

theorem keep_total (T : Total P) (k : Nat) (h : Tm) (r s : Ty) : ∀ As, ∃ b, keep P k h r s As = some b
  | [] => ⟨[], rfl⟩
  | A :: As => by
    obtain ⟨b, hb⟩ := keep_total T k h r s As
    rw [keep]
    split
    · exact absurd (by assumption) (T.cov _ _ _)
    · exact ⟨b, hb⟩
    · split
      · exact absurd (by assumption) (T.cov _ _ _)
      · exact ⟨b, hb⟩
      · exact ⟨_, by rw [hb]; rfl⟩

theorem evt_anti (T : Total P) (k : Nat) {r s : Ty} (nr : Named r.1) (ns : Named s.1) (ho : Overlap r s) :
    ∃ t, Named t.1.1 ∧ Evt fun f => antiUnifier P f k r s = some t := by
  have v1 := freshT_vars k r
  have v2 := freshT_vars (freshT k r).2 s
  have hk2 := freshT_le (freshT k r).2 s
  have nr' := named_fresh k nr
  have ns' := named_fresh (freshT k r).2 ns
  have hdj : Disjoint (vars (freshT k r).1.1) (vars (freshT (freshT k r).2 s).1.1) := Finset.disjoint_left.2 fun n h1 h2 => by
    have := (v1 n (mem_tvars.2 (.inl h1))).2
    have := (v2 n (mem_tvars.2 (.inl h2))).1
    omega
  obtain ⟨l, l', m1, m2, m3, m4, m5, m6, m7⟩ := gen_match (fv := id) (fun _ _ h => h) (k := (freshT (freshT k r).2 s).2) nr' ns' hdj
    (fun j hj h => by have := (v1 j (mem_tvars.2 (.inl h))).2; omega)
    (fun j hj h => by have := (v2 j (mem_tvars.2 (.inl h))).2; omega)
    (overlap_fresh ho (le_refl _))
  have unif : ∀ {x z : Tm} {l : Nat → Tm}, z.sub l = x → (∀ n ∈ vars z, n ∈ vars x → l n = .var n) → ∃ θ, x.sub θ = z.sub θ := by
    intro x z l h1 h2
    refine ⟨fun n => if n ∈ vars x then .var n else l n, ?_⟩
    rw [show (x.sub fun n => if n ∈ vars x then .var n else l n) = x.sub .var from sub_congr fun n hn => if_pos hn, sub_id]
    conv_lhs => rw [← h1]
    refine sub_congr fun n hn => ?_
    split
    · exact h2 n hn (by assumption)
    · rfl
  obtain ⟨o1, N1, h1⟩ := evt_onto T (generalizer id (freshT (freshT k r).2 s).2 (freshT k r).1.1 (freshT (freshT k r).2 s).1.1).2
    (r := (freshT k r).1) (unif m1 m4)
  obtain ⟨o2, N2, h2⟩ := evt_onto T (generalizer id (freshT (freshT k r).2 s).2 (freshT k r).1.1 (freshT (freshT k r).2 s).1.1).2
    (r := (freshT (freshT k r).2 s).1) (unif m2 m5)
  cases o1 with
  | none => exact ⟨((freshT (freshT k r).2 s).1, (generalizer id (freshT (freshT k r).2 s).2 (freshT k r).1.1 (freshT (freshT k r).2 s).1.1).2), ns', max N1 N2, fun f hf => by
      have a := h1 f (by omega)
      have b := h2 f (by omega)
      simp only at a b
      simp only [antiUnifier, a, b]⟩
  | some R =>
    cases o2 with
    | none => exact ⟨((freshT k r).1, (generalizer id (freshT (freshT k r).2 s).2 (freshT k r).1.1 (freshT (freshT k r).2 s).1.1).2), nr', max N1 N2, fun f hf => by
        have a := h1 f (by omega)
        have b := h2 f (by omega)
        simp only at a b
        simp only [antiUnifier, a, b]⟩
    | some S =>
      obtain ⟨b, hb⟩ := keep_total T (generalizer id (freshT (freshT k r).2 s).2 (freshT k r).1.1 (freshT (freshT k r).2 s).1.1).2
        (generalizer id (freshT (freshT k r).2 s).2 (freshT k r).1.1 (freshT (freshT k r).2 s).1.1).1 (freshT k r).1 (freshT (freshT k r).2 s).1
        ((R ++ S).dedup.filter (cand (generalizer id (freshT (freshT k r).2 s).2 (freshT k r).1.1 (freshT (freshT k r).2 s).1.1).1))
      exact ⟨(((generalizer id (freshT (freshT k r).2 s).2 (freshT k r).1.1 (freshT (freshT k r).2 s).1.1).1, b), (generalizer id (freshT (freshT k r).2 s).2 (freshT k r).1.1 (freshT (freshT k r).2 s).1.1).2), m6, max N1 N2, fun f hf => by
        have a := h1 f (by omega)
        have c := h2 f (by omega)
        simp only at a c
        simp only [antiUnifier, a, c, hb]⟩

theorem evt_loop (T : Total P) {ord : List Ty → List Ty} (hord : ∀ l, (ord l).Perm l) : ∀ {n k : Nat} {tmp : List Ty}, tmp.length < n →
    tmp.Nodup → (∀ t ∈ tmp, Named t.1) → ∃ o, Evt fun f => loop P ord f n k tmp = some o := by
  intro n
  induction n with
  | zero => intro k tmp h; omega
  | succ n ih =>
    intro k tmp hlt nd hn
    obtain ⟨o, N, h⟩ := evt_findPair T k (ord tmp)
    cases o with
    | none => exact ⟨(tmp, k), N, fun f hf => by simp only [loop, h f hf]⟩
    | some rs =>
      obtain ⟨r, s⟩ := rs
      obtain ⟨h1, h2, h3, h4⟩ := findPair_some (h N (le_refl _)) ((hord tmp).nodup_iff.2 nd)
      rw [(hord tmp).mem_iff] at h1 h2
      obtain ⟨⟨t, k1⟩, ht, N', h'⟩ := evt_anti T k (hn r h1) (hn s h2) (meets_overlap h4)
      have nd2 : ((tmp.erase r).erase s).Nodup := (nd.erase r).erase s
      have hlen : (((tmp.erase r).erase s).insert (freshT k1 t).1).length < tmp.length := by
        have hs' := (nd.mem_erase_iff (a := s) (b := r)).2 ⟨h3.symm, h2⟩
        have l1 := List.length_erase_of_mem h1
        have l2 := List.length_erase_of_mem hs'
        have l3 := List.length_pos_of_mem h1
        have l4 := List.length_pos_of_mem hs'
        have l5 : (((tmp.erase r).erase s).insert (freshT k1 t).1).length ≤ ((tmp.erase r).erase s).length + 1 := by
          by_cases hm : (freshT k1 t).1 ∈ (tmp.erase r).erase s
          · rw [List.insert_of_mem hm]; omega
          · rw [List.insert_of_not_mem hm]; simp
        omega
      obtain ⟨o, N2, h5⟩ := ih (k := (freshT k1 t).2) (tmp := ((tmp.erase r).erase s).insert (freshT k1 t).1) (by omega) nd2.insert
        (fun u hu => by
          rcases List.mem_insert_iff.1 hu with rfl | hu
          · exact named_fresh k1 ht
          · exact hn u (List.mem_of_mem_erase (List.mem_of_mem_erase hu)))
      exact ⟨o, max N (max N' N2), fun f hf => by
        simp only [loop, h f (by omega), h' f (by omega), h5 f (by omega)]⟩

/-- **C63, `disjoin` comes to an end** within as many rounds as there are types, if its calls return. -/
theorem C63_terminates (T : Total P) {ord : List Ty → List Ty} (hord : ∀ l, (ord l).Perm l) {p : List Ty} (hn : ∀ t ∈ p, Named t.1)
    {n k : Nat} (h : p.length < n) : ∃ o N, ∀ f ≥ N, disjoin P ord f n k p = some o :=
  evt_loop T hord (lt_of_le_of_lt (List.dedup_sublist p).length_le h) (List.nodup_dedup p) fun t ht => hn t (List.mem_dedup.1 ht)

/-! ### The type analysis -/

/-- **C63, the generalizing type analysis is sound**: `C61_generalizing` with this `disjoin`. -/
theorem C63_generalizing {W : Type} {g : TypeAn.Cfg} {p : List (WRule W)} (hs : Sound P I L) (Wd : TypeAn.World g I) (hg : TypeAn.Sound g I L)
    (hp : g.rules = TypeAn.toTypeProgram p) (hin : ∀ t ∈ g.inputs, vars t ⊆ L) (hD : 0 < g.D) {f n k : Nat} (hL : ∀ n ∈ L, n < k)
    (hr : ∀ r ∈ p, TypeAn.WOk g L k r) {disj : Nat → List Ty → Option (List Ty × Nat)} {same : List Ty → List Ty → Bool}
    (hdj : ∀ k xs o, disj k xs = some o → (∀ t ∈ xs, Named t.1) ∧ ∃ ord f n, (∀ l, (ord l).Perm l) ∧ disjoin P ord f n k xs = some o)
    (hsm : ∀ xs ys, same xs ys = true → Cover I xs ⊆ Cover I ys) {ch : List Ty} {k' : Nat}
    (e : TypeAn.runGen g disj same f n k [] = some (ch, k')) {x : Tm} (h : TypeAn.Derives p I x) : ∃ t ∈ ch, x ∈ Den I t := by
  refine TypeAn.C61_generalizing Wd hg hp hin hD hL hr (fun k1 xs ys k' hk hf e => ?_) hsm e h
  obtain ⟨hn, ord, f, n, hord, e1⟩ := hdj _ _ _ e
  obtain ⟨h1, h2, h3, h4, h5, h6, h7, h8⟩ := loop_spec hs hord (fun n hn => lt_of_lt_of_le (hL n hn) hk) (List.nodup_dedup xs)
    (fun t ht => hn t (List.mem_dedup.1 ht)) e1
  refine ⟨h2, fun t ht => ⟨fun n hn => ?_, ?_⟩, ?_⟩
  · rcases h6 t ht with h | h
    · exact (hf t (List.mem_dedup.1 h)).1 n hn
    · exact fun hl => absurd (hL n hl) (by have := (h n hn).1; omega)
  · obtain ⟨c, hc, hq⟩ := h7 (fun c => g.ops c = none ∧ c ≠ .str "=" ∧ ∀ p ∈ g.inputs, hfn p ≠ some c) (fun t ht => by
      obtain ⟨c, as, e, h⟩ := (hf t (List.mem_dedup.1 ht)).2
      exact ⟨c, by rw [e]; rfl, h⟩) t ht
    obtain ⟨as, e⟩ := hfn_some hc
    exact ⟨c, as, e, hq⟩
  · rintro x ⟨t, ht, hx⟩
    obtain ⟨u, hu, hs⟩ := h1 t (List.mem_dedup.2 ht)
    exact ⟨u, hu, hs hx⟩

/-- **C63, the propagator** of Propagate.lean and the simplification of Rewrites.lean meet the assumptions of
`C63_disjoin` and `C63_disjoint`, if no equality between different compound terms is met, and no constraint says that
something is free. -/
theorem C63_rewrites {E : Propagate.Env} {v : Nat} (A : Propagate.Apart E (L : Set Nat) []) (A' : Propagate.Apart (Rewrites.noMerge v E) (L : Set Nat) [])
    (M : Propagate.Model E I) (M' : Propagate.Model (Rewrites.noMerge v E) I)
    (hcp : ∀ k D, P.cp k D = some none → Propagate.Returns E D none)
    (hsi : ∀ k R, P.simp k R = .none → Rewrites.Call (Rewrites.noMerge v E) false true false R .none)
    (hodd : ∀ D st, (∃ k, P.cp k D = some none) → Propagate.Run E D st → ∀ d ∈ st.chart, ¬ Propagate.Odd d)
    (hodd' : ∀ (R : Ty) st, (∃ k, P.simp k R = .none) → Propagate.Run (Rewrites.noMerge v E) R.2 st → ∀ d ∈ st.chart, ¬ Propagate.Odd d)
    (hfree : ∀ (R : Ty) st, (∃ k, P.simp k R = .none) → Propagate.Returns (Rewrites.noMerge v E) R.2 (some st) → ∀ x ∈ st.chart, ∀ f y,
      Rewrites.callB st.bindings f x = some y → fnIs "$free" y = false) :
    (∀ k D, (∀ c ∈ D, ∀ n ∈ vars c, n ∉ L) → P.cp k D = some none → ∀ σ, ¬ Solution I D σ) ∧
      ∀ k R, (∀ n ∈ tvars R, n ∉ L) → P.simp k R = .none → Den I R = ∅ := by
  refine ⟨fun k D hD e => ?_, fun k R hR e => ?_⟩
  · rcases Propagate.C48_fail (L := (L : Set Nat)) ⟨A.body, A.head, fun c hc n hn => by simpa using hD c hc n hn, A.blt, A.hooks⟩ M (hcp k D e) with h | ⟨st, h1, d, h2, h3⟩
    · exact h
    · exact (hodd D st ⟨k, e⟩ h1 d h2 h3).elim
  · rcases Rewrites.C53_simplify_none (L := (L : Set Nat)) ⟨A'.body, A'.head, fun c hc n hn => by
      simpa using hR n (mem_tvars.2 (.inr ⟨c, hc, hn⟩)), A'.blt, A'.hooks⟩ M' (hsi k R e) with h | ⟨st, h1, d, h2, h3⟩ | ⟨_, f, st, h1, x, h2, y, h3, h4⟩
    · exact h
    · exact (hodd' R st ⟨k, e⟩ h1 d h2 h3).elim
    · rw [hfree R st ⟨k, e⟩ h1 x h2 f y h3] at h4; cases h4

end

/-! ### Concrete cases -/

open TypeAn (mkT)

/-- no rewrite rules; a type with one constraint covers a type that has an instance of it on an instance of the head -/
def P1 : Par where
  cp := fun _ D => some (some D)
  cov := fun _ r s => match (freshT (TypeAn.above s) r).1 with
    | (h, [A]) => some (s.2.any fun c => Subst.coversF 50 (.app [h, A]) (.app [s.1, c]) == some true)
    | _ => some false
  simp := fun _ R => .ty R.1 R.2

/-- equality, and `n(1)`, `m(2)`, `b(3)` -/
def I1 : Set Tm := {x | (∃ a, x = eqT a a) ∨ x = mkT "n" [.con (.int 1)] ∨ x = mkT "m" [.con (.int 2)] ∨ x = mkT "b" [.con (.int 3)]}

theorem P1_sound_of {I : Set Tm} {L : Finset Nat} (heq : ∀ a b, vars a = ∅ → vars b = ∅ → (eqT a b ∈ I ↔ a = b)) : Sound P1 I L := by
  refine ⟨fun k D _ e => by simp [P1] at e, fun k r s _ _ e => ?_, heq⟩
  · rw [← den_fresh I (TypeAn.above s) r]
    have v := freshT_vars (TypeAn.above s) r
    simp only [P1] at e
    generalize (freshT (TypeAn.above s) r).1 = q at *
    split at e
    · rename_i h A
      simp only [Option.some.injEq, List.any_eq_true, beq_iff_eq] at e
      obtain ⟨c, hc, e⟩ := e
      have hd : Disjoint (vars (.app [h, A])) (vars (.app [s.1, c])) := by
        refine Finset.disjoint_left.2 fun n h1 h2 => ?_
        have l1 := (v n (by simpa [tvars] using h1)).1
        have l2 : n < TypeAn.above s := TypeAn.lt_above (mem_tvars.2 (by
          simp only [vars_app, varsL_cons, varsL_nil, Finset.mem_union, Finset.notMem_empty, or_false] at h2
          exact h2.imp id fun h => ⟨c, hc, h⟩))
        omega
      obtain ⟨τ, hτ⟩ := ((Subst.C06_covers hd).2 _ _ e).1 rfl
      simp only [sub_app, List.map_cons, List.map_nil, Tm.app.injEq, List.cons.injEq, and_true] at hτ
      rintro x ⟨σ, hσ, rfl⟩
      refine ⟨fun n => (τ n).sub σ, ⟨fun n => vars_sub_ground hσ.1 _, fun B hB => ?_⟩, by rw [← hτ.1, sub_sub]⟩
      simp only [List.mem_singleton] at hB
      subst hB
      rw [← sub_sub, hτ.2]
      exact hσ.2 c hc
    · simp at e

theorem P1_sound : Sound P1 I1 ∅ := by
  refine P1_sound_of fun a b _ _ => ?_
  · constructor
    · rintro (⟨c, h⟩ | h | h | h) <;> simp [eqT, mkT, Propagate.fnc] at h
      rw [h.1, h.2]
    · rintro rfl; exact .inl ⟨a, rfl⟩

/-- `p(X,Y) :- n(X), m(Y).` and `p(A,g(B)) :- n(A), b(B).` -/
def rT : Ty := (mkT "p" [.var 0, .var 1], [mkT "n" [.var 0], mkT "m" [.var 1]])
def sT : Ty := (mkT "p" [.var 2, mkT "g" [.var 3]], [mkT "n" [.var 2], mkT "b" [.var 3]])

theorem anti_run : antiUnifier P1 20 10 rT sT = some ((mkT "p" [.var 10, .var 11], [mkT "n" [.var 10]]), 14) := by decide +kernel

theorem named_mk {f : String} {as : List Tm} (h : ∀ a ∈ as, Named a) : Named (mkT f as) := .app _ _ h

theorem rT_named : Named rT.1 := named_mk (by simp only [List.mem_cons, List.not_mem_nil, or_false]; rintro a (rfl | rfl) <;> exact .var _)
theorem sT_named : Named sT.1 := named_mk (by
  simp only [List.mem_cons, List.not_mem_nil, or_false]
  rintro a (rfl | rfl)
  · exact .var _
  · exact named_mk (by simp only [List.mem_singleton]; rintro a rfl; exact .var _))

/-- the constraint that both types have is kept, the others are not -/
example : Den I1 rT ⊆ Den I1 (mkT "p" [.var 10, .var 11], [mkT "n" [.var 10]]) ∧
    Den I1 sT ⊆ Den I1 (mkT "p" [.var 10, .var 11], [mkT "n" [.var 10]]) := by
  obtain ⟨h1, h2, _⟩ := C63_anti_unifier P1_sound (by simp) rT_named sT_named
    ⟨fun n => if n = 1 then mkT "g" [.var 3] else .var 2, .var, by simp [rT, sT, mkT]⟩ anti_run
  exact ⟨h1, h2⟩

def pT : List Ty := [rT, (mkT "q" [.con (.int 1)], []), sT]

theorem pT_named : ∀ t ∈ pT, Named t.1 := by
  simp only [pT, List.mem_cons, List.not_mem_nil, or_false]
  rintro t (rfl | rfl | rfl)
  · exact rT_named
  · exact named_mk (by simp only [List.mem_singleton]; rintro a rfl; exact .con _)
  · exact sT_named

theorem disjoin_run : disjoin P1 List.reverse 20 10 10 pT =
    some ([(mkT "p" [.var 14, .var 15], [mkT "n" [.var 14]]), (mkT "q" [.con (.int 1)], [])], 16) := by decide +kernel

example : ∀ t ∈ pT, ∃ u ∈ [((mkT "p" [.var 14, .var 15], [mkT "n" [.var 14]]) : Ty), (mkT "q" [.con (.int 1)], [])], Den I1 t ⊆ Den I1 u :=
  (C63_disjoin P1_sound (fun l => List.reverse_perm l) (by simp) pT_named disjoin_run).1

example : Den I1 (mkT "p" [.var 14, .var 15], [mkT "n" [.var 14]]) ∩ Den I1 (mkT "q" [.con (.int 1)], []) = ∅ :=
  C63_disjoint P1_sound (fun k R _ e => by simp [P1] at e) (fun l => List.reverse_perm l) (by simp) pT_named
    (by decide +kernel) disjoin_run _ (by simp) _ (by simp) (by simp [mkT])

example : ∃ o N, ∀ f ≥ N, disjoin P1 id f 4 10 pT = some o :=
  C63_terminates ⟨fun k D => by simp [P1], fun k r s => by simp only [P1]; split <;> simp, fun k R => by simp [P1]⟩
    (fun l => .refl l) pT_named (by decide)

/-- the world of `pathI`, with equality -/
def pathJ : Set Tm := {x | x ∈ TypeAn.pathI ∨ ∃ a, x = eqT a a}

theorem pathJW : TypeAn.World TypeAn.pathG pathJ where
  heads := TypeAn.pathW.heads
  eq := by
    rintro x y (h | ⟨a, h⟩)
    · exact TypeAn.pathW.eq x y h
    · simp [eqT] at h; rw [h.1, h.2]
  ops := by intro c o x y h; simp [TypeAn.pathG, TypeAn.cfg] at h
  con := fun c => .inl (TypeAn.pathW.con c)
  free := fun x hx => .inl (TypeAn.pathW.free x hx)
  input := by
    rintro c as (h | ⟨a, h⟩)
    · exact TypeAn.pathW.input c as h
    · simp only [eqT, Tm.app.injEq, List.cons.injEq, Propagate.fnc, Tm.con.injEq] at h
      exact .inl ⟨h.1, by rw [h.2]; rfl⟩

theorem pathJ_eq (a b : Tm) : eqT a b ∈ pathJ ↔ a = b := by
  constructor
  · exact pathJW.eq a b
  · rintro rfl; exact .inr ⟨a, rfl⟩

theorem derives_mono {W : Type} {p : List (WRule W)} {I J : Set Tm} (h : I ⊆ J) {x : Tm} (hx : TypeAn.Derives p I x) : TypeAn.Derives p J x := by
  induction hx with
  | rule θ hr _ ih => exact .rule θ hr fun t ht hn => ih t ht fun hi => hn (h hi)

/-- `disjoin`, for types whose head has two variables -/
def disjE (k : Nat) (xs : List Ty) : Option (List Ty × Nat) :=
  if xs.all fun t => match t.1 with | .app [.con _, .var _, .var _] => true | _ => false then disjoin P1 id 20 10 k xs else none

example : ∃ t ∈ [((mkT "path" [.var 29, .var 30], []) : Ty)], mkT "path" [.con (.int 1), .con (.int 3)] ∈ Den pathJ t := by
  refine C63_generalizing (P := P1) (f := 20) (n := 6) (k := 10) (disj := disjE) (same := TypeAn.gsame) (k' := 48) (L := {0, 1, 2})
    (P1_sound_of fun a b _ _ => pathJ_eq a b) pathJW (TypeAn.cfg_sound _ _ _ _ _) rfl (by decide) (by decide) (by decide) TypeAn.path_ok
    (fun k xs o e => ?_) ?_ (by decide +kernel) (derives_mono (fun x h => .inl h) TypeAn.path13)
  · unfold disjE at e
    split at e
    · rename_i h
      refine ⟨fun t ht => ?_, id, 20, 10, fun l => .refl l, e⟩
      have := (List.all_eq_true.1 h) t ht
      split at this
      · rename_i e; rw [e]
        refine .app _ _ ?_
        simp only [List.mem_cons, List.not_mem_nil, or_false]
        rintro a (rfl | rfl) <;> exact .var _
      · cases this
    · cases e
  · rintro xs ys e x ⟨t, ht, hx⟩
    simp only [TypeAn.gsame, decide_eq_true_eq] at e
    have h1 : (freshT 0 t).1 ∈ ys.map fun t => (freshT 0 t).1 := by
      rw [← e]; exact List.mem_map_of_mem (f := fun t => (freshT 0 t).1) ht
    obtain ⟨t', ht', e'⟩ := List.mem_map.1 h1
    refine ⟨t', ht', ?_⟩
    rw [← den_fresh pathJ 0 t', e', den_fresh]
    exact hx

/-- `$fail ⇐ a(X), b(X)` -/
def abE : List (Tm × List Tm) := [(Propagate.FAIL, [mkT "a" [.var 0], mkT "b" [.var 0]])]

/-- equality, everything is bound and nothing is free, and `a(1)`, `b(2)` -/
def abI : Set Tm := {x | (∃ a, x = eqT a a) ∨ (∃ a, x = mkT "$bound" [a]) ∨ x = mkT "a" [.con (.int 1)] ∨ x = mkT "b" [.con (.int 2)]}

theorem abI_model {rs : List (Tm × List Tm)} (h : ∀ r ∈ rs, r = abE[0] ∨ r = (Propagate.FAIL, [.app [Propagate.fnc "$free", .var 5], .app [Propagate.fnc "$bound", .var 5]])) :
    Propagate.Model (Rewrites.env rs) abI where
  rules r hr θ _ hb := by
    rcases h r hr with rfl | rfl
    · have h1 := hb (mkT "a" [.var 0]) (by simp [abE])
      have h2 := hb (mkT "b" [.var 0]) (by simp [abE])
      simp [abI, mkT, eqT, Propagate.fnc] at h1 h2
      rw [h1] at h2; simp at h2
    · have h1 := hb (mkT "$free" [.var 5]) (by simp [mkT, Propagate.fnc])
      simp [abI, mkT, eqT, Propagate.fnc] at h1
  nofail := by simp [abI, Propagate.FAIL, mkT, eqT, Propagate.fnc]
  eq a b _ _ := by
    constructor
    · rintro (⟨c, h⟩ | ⟨c, h⟩ | h | h) <;> simp [eqT, mkT, Propagate.fnc] at h
      rw [h.1, h.2]
    · rintro rfl; exact .inl ⟨a, rfl⟩
  blt q σ _ _ c hc := by
    simp only [Rewrites.env, Rewrites.cp, List.mem_singleton] at hc
    subst hc
    exact ⟨by simp, fun _ h => (nomatch h)⟩
  hooks q σ hσ _ x hx := (Rewrites.boundHook_ok (L := ∅) (I := abI) (fun t _ => .inr (.inl ⟨t, rfl⟩))).2 q σ hσ x hx

open Classical in
/-- propagation as a function, where it fails without meeting an equality between different compound terms -/
noncomputable def abP : Par where
  cp := fun _ D => if Propagate.Returns (Rewrites.env abE) D none ∧ ∀ st, Propagate.Run (Rewrites.env abE) D st → ∀ d ∈ st.chart, ¬ Propagate.Odd d
    then some none else some (some D)
  cov := fun _ _ _ => some false
  simp := fun _ R => if Rewrites.Call (Rewrites.noMerge 5 (Rewrites.env abE)) false true false R .none ∧
      (∀ st, Propagate.Run (Rewrites.noMerge 5 (Rewrites.env abE)) R.2 st → ∀ d ∈ st.chart, ¬ Propagate.Odd d) ∧
      (∀ st, Propagate.Returns (Rewrites.noMerge 5 (Rewrites.env abE)) R.2 (some st) → ∀ x ∈ st.chart, ∀ f y,
        Rewrites.callB st.bindings f x = some y → fnIs "$free" y = false)
    then .none else .ty R.1 R.2

example : Sound abP abI {0, 5} ∧ ∀ k R, (∀ n ∈ tvars R, n ∉ ({0, 5} : Finset Nat)) → abP.simp k R = .none → Den abI R = ∅ := by
  have M : Propagate.Model (Rewrites.env abE) abI := abI_model (by simp [abE])
  obtain ⟨h1, h2⟩ := C63_rewrites (P := abP) (I := abI) (L := {0, 5}) (E := Rewrites.env abE) (v := 5)
    (Rewrites.env_apart (by simp [abE, mkT]) (by simp [abE, Propagate.FAIL, Propagate.fnc]) (by simp))
    (Rewrites.env_apart (rs := abE ++ [_]) (by simp [abE, mkT, Propagate.fnc]) (by simp [abE, Propagate.FAIL, Propagate.fnc]) (by simp)) M
    (abI_model (rs := abE ++ [_]) (by simp [abE]))
    (fun k D e => by simp only [abP] at e; split at e <;> simp_all)
    (fun k R e => by simp only [abP] at e; split at e <;> simp_all)
    (fun D st ⟨k, e⟩ => by simp only [abP] at e; split at e <;> rename_i h; exacts [h.2 st, by simp at e])
    (fun R st ⟨k, e⟩ => by simp only [abP] at e; split at e <;> rename_i h; exacts [h.2.1 st, by simp at e])
    (fun R st ⟨k, e⟩ => by simp only [abP] at e; split at e <;> rename_i h; exacts [h.2.2 st, by simp at e])
  exact ⟨⟨h1, fun k r s _ _ e => by simp [abP] at e, M.eq⟩, h2⟩

/-- Without a common instance of the heads, the anti-unifier may fail to cover: for `f(1,1)` and `f(g(Y),g(5))` it is
`f(Z,Z)`.  `disjoin` asks for it only if the types overlap. -/
theorem C63_overlap_needed :
    let s : Ty := (mkT "f" [mkT "g" [.var 0], mkT "g" [.con (.int 5)]], [])
    ∃ t k, antiUnifier P1 20 10 (mkT "f" [.con (.int 1), .con (.int 1)], []) s = some (t, k) ∧ ¬ Den I1 s ⊆ Den I1 t := by
  refine ⟨(mkT "f" [.var 11, .var 11], []), 12, by decide +kernel, fun h => ?_⟩
  obtain ⟨σ, -, e⟩ := @h (mkT "f" [mkT "g" [.con (.int 6)], mkT "g" [.con (.int 5)]])
    ⟨fun _ => .con (.int 6), ⟨fun _ => rfl, by simp⟩, by simp [mkT]⟩
  simp only [mkT, sub_app, List.map_cons, List.map_nil, sub_con, sub_var, Tm.app.injEq, List.cons.injEq, and_true, true_and] at e
  have := e.1.trans e.2.symm
  simp at this

/-- The remark at rewrites.py:233-234, that the anti-unifier is equivalent to `r` if `r` covers `s`, does not hold for types with other
variables than those of the head: for two copies of `p(X) :- n(X), e(X,Y)` it is `p(X) :- n(X)`. -/
theorem C63_remark :
    let r : Ty := (mkT "p" [.var 0], [mkT "n" [.var 0], mkT "e" [.var 0, .var 1]])
    ∃ t k, antiUnifier P1 20 10 r r = some (t, k) ∧ ¬ Den I1 t ⊆ Den I1 r := by
  refine ⟨(mkT "p" [.var 10], [mkT "n" [.var 10]]), 14, by decide +kernel, fun h => ?_⟩
  obtain ⟨σ, h1, e⟩ := @h (mkT "p" [.con (.int 1)]) ⟨fun _ => .con (.int 1), ⟨fun _ => rfl, by simp [mkT, I1]⟩, by simp [mkT]⟩
  have := h1.2 (mkT "e" [.var 0, .var 1]) (by simp)
  simp [mkT, I1, eqT, Propagate.fnc] at this

end AntiUnify
end Verif
