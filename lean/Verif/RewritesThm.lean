/-
Property C53: simplification and comparison of simple types.
-/
import Verif.Rewrites
import Verif.PropagateThm
import Verif.SubstThm

set_option linter.unusedSectionVars false
set_option linter.unusedSimpArgs false

namespace Verif
namespace Rewrites
open Tm Heap Propagate

/-! ### Specification -/

/-- The ground items of a simple type, in an interpretation of the constraints. -/
def Den (I : Set Tm) (r : Ty) : Set Tm := {x | ∃ σ, Solution I r.2 σ ∧ x = r.1.sub σ}

/-- Bindings in solved form: variables on the left, each once, and following the bindings of a variable comes
to an end. -/
structure Solved (B : List Tm) : Prop where
  keys : ∀ b ∈ B, ∃ n u, b = eqT (.var n) u
  once : ∀ n u u', eqT (.var n) u ∈ B → eqT (.var n) u' ∈ B → u = u'
  ends : ∀ n u, eqT (.var n) u ∈ B → ∃ f, callB B f (.var n) ≠ none

/-- What an interpretation says about instantiation states, `=` and built-in constraints. -/
structure Standard (E : Env) (I : Set Tm) : Prop where
  eq : ∀ a b, vars a = ∅ → vars b = ∅ → (eqT a b ∈ I ↔ a = b)
  bound : ∀ t, vars t = ∅ → .app [fnc "$bound", t] ∈ I
  free : ∀ t, vars t = ∅ → .app [fnc "$free", t] ∈ I
  exact : ∀ q eqs σ, .yes eqs ∈ E.blt q → Propagate.Ground σ → (∀ kv ∈ eqs, kv.1.sub σ = kv.2.sub σ) → q.sub σ ∈ I

/-! ### Substitution by the bindings -/

theorem lookup_mem {B : List Tm} {x y : Tm} (h : lookup B x = some y) : ∃ g, .app [g, x, y] ∈ B := by
  unfold lookup at h
  obtain ⟨b, hb, hx⟩ := List.exists_of_findSome?_eq_some h
  rw [List.mem_reverse] at hb
  split at hx
  · next g a b =>
    split at hx
    · next e => cases hx; subst e; exact ⟨_, hb⟩
    · cases hx
  · cases hx

theorem lookup_none {B : List Tm} {x y g : Tm} (h : .app [g, x, y] ∈ B) : lookup B x ≠ none := by
  unfold lookup
  rw [Ne, List.findSome?_eq_none_iff]
  intro h'
  have := h' _ (List.mem_reverse.2 h)
  simp at this

theorem callB_succ {B : List Tm} : ∀ {f : Nat} {t u : Tm}, callB B f t = some u → callB B (f + 1) t = some u := by
  intro f
  induction f with
  | zero => intro t u h; simp [callB] at h
  | succ f ih =>
    intro t u h
    rw [callB.eq_def] at h ⊢
    simp only at h ⊢
    cases e : lookup B t with
    | some w => rw [e] at h; exact ih h
    | none =>
      rw [e] at h
      cases t with
      | app as =>
        simp only [Option.map_eq_some_iff, allSome_eq_some] at h ⊢
        obtain ⟨bs, h1, h2⟩ := h
        refine ⟨bs, ?_, h2⟩
        rw [← h1]
        refine List.map_congr_left fun a ha => ?_
        have : callB B f a ∈ bs.map some := h1 ▸ List.mem_map_of_mem ha
        obtain ⟨b, _, hb⟩ := List.mem_map.1 this
        rw [← hb]
        exact ih hb.symm
      | var n => exact h
      | con c => exact h

theorem callB_mono {B : List Tm} {f g : Nat} (hfg : f ≤ g) {t u : Tm} (h : callB B f t = some u) : callB B g t = some u := by
  induction hfg with
  | refl => exact h
  | step _ ih => exact callB_succ ih

theorem callB_det {B : List Tm} {f g : Nat} {t u u' : Tm} (h : callB B f t = some u) (h' : callB B g t = some u') : u = u' := by
  have h1 := callB_mono (le_max_left f g) h
  rw [callB_mono (le_max_right f g) h'] at h1
  exact (Option.some.inj h1).symm

/-- Under a valuation that satisfies the bindings, substitution changes nothing. -/
theorem callB_sub {B : List Tm} {σ : Nat → Tm} (h : ∀ g x y, .app [g, x, y] ∈ B → x.sub σ = y.sub σ) :
    ∀ {f : Nat} {t u : Tm}, callB B f t = some u → u.sub σ = t.sub σ := by
  intro f
  induction f with
  | zero => intro t u e; simp [callB] at e
  | succ f ih =>
    intro t u e
    rw [callB.eq_def] at e; simp only at e
    cases el : lookup B t with
    | some w =>
      rw [el] at e
      obtain ⟨g, hg⟩ := lookup_mem el
      rw [ih e, h g t w hg]
    | none =>
      rw [el] at e
      cases t with
      | app as =>
        simp only [Option.map_eq_some_iff, allSome_eq_some] at e
        obtain ⟨bs, h1, rfl⟩ := e
        simp only [sub_app, Tm.app.injEq]
        refine List.ext_getElem? fun i => ?_
        have hi := congrArg (·[i]?) h1
        simp only [List.getElem?_map] at hi ⊢
        cases ea : as[i]? with
        | none =>
          cases eb : bs[i]? with
          | none => rfl
          | some b => rw [ea, eb] at hi; simp at hi
        | some a =>
          cases eb : bs[i]? with
          | none => rw [ea, eb] at hi; simp at hi
          | some b =>
            rw [ea, eb] at hi
            simp only [Option.map_some, Option.some.injEq] at hi ⊢
            exact ih hi
      | var n => cases e; rfl
      | con c => cases e; rfl

open Classical in
/-- The substitution that the bindings denote. -/
noncomputable def toB (B : List Tm) (n : Nat) : Tm :=
  if h : ∃ u f, callB B f (.var n) = some u then h.choose else .var n

theorem toB_eq {B : List Tm} {n f : Nat} {u : Tm} (h : callB B f (.var n) = some u) : toB B n = u := by
  have h' : ∃ u f, callB B f (.var n) = some u := ⟨u, f, h⟩
  unfold toB
  rw [dif_pos h']
  obtain ⟨g, hg⟩ := h'.choose_spec
  exact callB_det hg h

theorem callB_toB {B : List Tm} (hB : Solved B) : ∀ {f : Nat} {t u : Tm}, callB B f t = some u →
    u = t.sub (toB B) ∧ ∀ n ∈ vars u, lookup B (.var n) = none := by
  intro f
  induction f with
  | zero => intro t u e; simp [callB] at e
  | succ f ih =>
    intro t u e
    have e0 := e
    rw [callB.eq_def] at e; simp only at e
    cases el : lookup B t with
    | some w =>
      rw [el] at e
      obtain ⟨g, hg⟩ := lookup_mem el
      obtain ⟨n, u', hn⟩ := hB.keys _ hg
      simp only [eqT, Tm.app.injEq, List.cons.injEq, and_true] at hn
      obtain ⟨_, rfl, rfl⟩ := hn
      refine ⟨?_, (ih e).2⟩
      show u = toB B n
      exact (toB_eq e0).symm
    | none =>
      rw [el] at e
      cases t with
      | app as =>
        simp only [Option.map_eq_some_iff, allSome_eq_some] at e
        obtain ⟨bs, h1, rfl⟩ := e
        constructor
        · simp only [sub_app, Tm.app.injEq]
          refine List.ext_getElem? fun i => ?_
          have hi := congrArg (·[i]?) h1
          simp only [List.getElem?_map] at hi ⊢
          cases ea : as[i]? with
          | none =>
            cases eb : bs[i]? with
            | none => rfl
            | some b => rw [ea, eb] at hi; simp at hi
          | some a =>
            cases eb : bs[i]? with
            | none => rw [ea, eb] at hi; simp at hi
            | some b =>
              rw [ea, eb] at hi
              simp only [Option.map_some, Option.some.injEq] at hi ⊢
              exact (ih hi).1
        · intro n hn
          rw [vars_app, mem_varsL] at hn
          obtain ⟨b, hb, hn⟩ := hn
          have : some b ∈ as.map (callB B f) := h1 ▸ List.mem_map_of_mem hb
          obtain ⟨a, _, ha⟩ := List.mem_map.1 this
          exact (ih ha).2 n hn
      | var n => cases e; exact ⟨(toB_eq e0).symm, fun m hm => by simp at hm; subst hm; exact el⟩
      | con c => cases e; exact ⟨by simp, fun m hm => by simp at hm⟩

theorem callB_idem {B : List Tm} (hB : Solved B) {f : Nat} {t u : Tm} (e : callB B f t = some u) :
    u.sub (toB B) = u := by
  have h := (callB_toB hB e).2
  have : u.sub (toB B) = u.sub .var := sub_congr fun n hn => by
    refine toB_eq (f := 1) ?_
    rw [callB.eq_def]; simp only [h n hn]
  rw [this, sub_id]

theorem toB_binding {B : List Tm} (hB : Solved B) {n : Nat} {u : Tm} (h : eqT (.var n) u ∈ B) :
    toB B n = u.sub (toB B) := by
  obtain ⟨f, hf⟩ := hB.ends n u h
  obtain ⟨w, hw⟩ := Option.ne_none_iff_exists'.1 hf
  rw [toB_eq hw]
  cases f with
  | zero => simp [callB] at hw
  | succ f =>
    rw [callB.eq_def] at hw; simp only at hw
    obtain ⟨u', hu'⟩ := Option.ne_none_iff_exists'.1 (lookup_none h)
    rw [hu'] at hw
    obtain ⟨g, hg⟩ := lookup_mem hu'
    obtain ⟨m, u'', e⟩ := hB.keys _ hg
    have : u' = u := hB.once n u' u (by
      simp only [eqT, Tm.app.injEq, List.cons.injEq, and_true] at e
      rw [eqT, ← e.1]; exact hg) h
    subst this
    exact (callB_toB hB hw).1

/-! ### The result of a call -/

/-- What may be dropped. -/
def Droppable (dc : Bool) (checked : List Tm) (x : Tm) : Prop :=
  (dc = true ∧ x ∈ checked) ∨ (∃ X, x = .app [fnc "$bound", X]) ∨ ∃ X, x = .app [fnc "$free", X]

theorem ret_ty {h : Option Tm} {ch drop : List Tm} {hd : Tm} {bd : List Tm} (e : ret h ch drop = .ty hd bd) :
    h = some hd ∧ bd ⊆ ch ∧ ∀ x ∈ ch, x ∈ bd ∨ x ∈ drop := by
  unfold ret at e
  split at e
  · cases e
    refine ⟨rfl, fun x hx => (List.mem_filter.1 hx).1, fun x hx => ?_⟩
    by_cases h : x ∈ drop
    · exact .inr h
    · exact .inl (List.mem_filter.2 ⟨hx, by simpa using h⟩)
  · cases e

theorem insts_ty {dc ui afm : Bool} {B checked ch : List Tm} {h : Option Tm} {hd : Tm} {bd : List Tm}
    (e : insts dc ui afm B checked h ch = .ty hd bd) :
    h = some hd ∧ bd ⊆ ch ∧ ∀ x ∈ ch, x ∈ bd ∨ Droppable dc checked x := by
  have hdc : ∀ x ∈ (if dc then checked else []), Droppable dc checked x := by
    intro x hx
    cases dc with
    | false => simp at hx
    | true => exact .inl ⟨rfl, by simpa using hx⟩
  have hb : ∀ (p : Tm → Bool), ∀ x ∈ (if dc then checked else []) ++ ((args0 "$bound" ch).filter p).map
      (fun X => .app [fnc "$bound", X]), Droppable dc checked x := by
    intro p x hx
    rcases List.mem_append.1 hx with h1 | h1
    · exact hdc x h1
    · obtain ⟨X, _, rfl⟩ := List.mem_map.1 h1
      exact .inr (.inl ⟨X, rfl⟩)
  unfold insts at e
  simp only at e
  split at e
  · split at e
    · obtain ⟨h1, h2, h3⟩ := ret_ty e
      refine ⟨h1, h2, fun x hx => (h3 x hx).imp _root_.id fun h => ?_⟩
      rcases List.mem_append.1 h with h | h
      · exact hb _ x h
      · obtain ⟨X, _, rfl⟩ := List.mem_map.1 h
        exact .inr (.inr ⟨X, rfl⟩)
    · split at e
      · cases e
      · split at e
        · cases e
        · split at e
          · cases e
          · obtain ⟨h1, h2, h3⟩ := ret_ty e
            exact ⟨h1, h2, fun x hx => (h3 x hx).imp _root_.id fun h => hb _ x h⟩
  · obtain ⟨h1, h2, h3⟩ := ret_ty e
    exact ⟨h1, h2, fun x hx => (h3 x hx).imp _root_.id fun h => hdc x h⟩

/-- The type that a call returns: every constraint is a substituted constraint of the chart, and every
constraint of the chart is kept after substitution, unless it is an equality or droppable. -/
theorem finish_ty {f : Nat} {dc ui afm : Bool} {R : Ty} {st : St} {hd : Tm} {bd : List Tm}
    (e : finish f dc ui afm R st = .ty hd bd) :
    callB st.bindings f R.1 = some hd ∧
    (∀ y ∈ bd, ∃ x ∈ st.chart, callB st.bindings f x = some y) ∧
    ∀ x ∈ st.chart, isApp x = true → fnIs "=" x = false →
      ∃ y, callB st.bindings f x = some y ∧ (y ∈ bd ∨ Droppable dc st.checked y) := by
  unfold finish at e
  split at e
  · cases e
  · next ch hch =>
    rw [allSome_eq_some] at hch
    split at e
    · obtain ⟨h1, h2, h3⟩ := insts_ty e
      refine ⟨h1, fun y hy => ?_, fun x hx ha hn => ?_⟩
      · have : some y ∈ ch.map some := List.mem_map_of_mem (List.mem_dedup.1 (h2 hy))
        rw [← hch] at this
        obtain ⟨x, hx, hxy⟩ := List.mem_map.1 this
        exact ⟨x, (List.mem_filter.1 hx).1, hxy⟩
      · have : callB st.bindings f x ∈ ch.map some := by
          rw [← hch]
          exact List.mem_map_of_mem (List.mem_filter.2 ⟨hx, by simp [ha, hn]⟩)
        obtain ⟨y, hy, hxy⟩ := List.mem_map.1 this
        exact ⟨y, hxy.symm, h3 y (List.mem_dedup.2 hy)⟩
    · cases e

section Call
variable {E : Env} {I : Set Tm} {L : Set Nat} {dc ui afm : Bool} {R : Ty}

theorem satisfies {D : List Tm} (A : Apart E L D) (heq : ∀ a b, vars a = ∅ → vars b = ∅ → (eqT a b ∈ I ↔ a = b))
    {st : St} (h : Returns E D (some st)) {σ : Nat → Tm} (hσ : Solution I st.chart σ) :
    ∀ g x y, .app [g, x, y] ∈ st.bindings → x.sub σ = y.sub σ := by
  intro g x y hb
  obtain ⟨hc, X, Y, e⟩ := (C48_bindings A h _).1 hb
  have := hσ.2 _ hc
  rw [e] at this
  simp only [eqT, Tm.app.injEq, List.cons.injEq, and_true] at e
  obtain ⟨_, rfl, rfl⟩ := e
  rwa [eqT_sub, heq _ _ (vars_sub_ground hσ.1 _) (vars_sub_ground hσ.1 _)] at this

theorem returns_run {D : List Tm} {st : St} (h : Returns E D (some st)) : Run E D st := by
  cases h with
  | done hr _ => exact hr

/-- A solution of the body of a type remains one after simplification, and the item is the same. -/
theorem call_sup (A : Apart E L R.2) (M : Model E I) {hd : Tm} {bd : List Tm}
    (h : Call E dc ui afm R (.ty hd bd)) {σ : Nat → Tm} (hσ : Solution I R.2 σ) :
    Solution I bd σ ∧ hd.sub σ = R.1.sub σ := by
  generalize ho : Res.ty hd bd = o at h
  cases h with
  | fail _ => cases ho
  | @done f st hr _ =>
    obtain ⟨h1, h2, _⟩ := finish_ty ho.symm
    have hs := (C48_solutions A M (returns_run hr) σ).2 hσ
    have hb := satisfies A M.eq hr hs
    refine ⟨⟨hσ.1, fun y hy => ?_⟩, callB_sub hb h1⟩
    obtain ⟨x, hx, hxy⟩ := h2 y hy
    rw [callB_sub hb hxy]
    exact hs.2 x hx

/-- Conversely, when the bindings are in solved form and no `ks` or `ws` constraint was marked as checked. -/
theorem finish_sub (A : Apart E L R.2) (hI : Standard E I)
    (hbody : ∀ c ∈ R.2, isApp c = true ∧ (fnIs "=" c = true → ∃ X Y, c = eqT X Y)) {st : St}
    (hr : Returns E R.2 (some st)) (hB : Solved st.bindings)
    (hks : dc = true → ∀ c ∈ st.checked, fnIs "ks" c = false ∧ fnIs "ws" c = false)
    {f : Nat} {hd : Tm} {bd : List Tm} (e : finish f dc ui afm R st = .ty hd bd) {σ : Nat → Tm}
    (hσ : Solution I bd σ) : ∃ τ, Solution I R.2 τ ∧ R.1.sub τ = hd.sub σ := by
  obtain ⟨h1, h2, h3⟩ := finish_ty e
  have hin : R.2 ⊆ st.chart := (run_inv (I := ∅) A (returns_run hr)).2
  let τ : Nat → Tm := fun n => (toB st.bindings n).sub σ
  have hτ : Propagate.Ground τ := ground_comp hσ.1 _
  have hsub : ∀ t : Tm, t.sub τ = (t.sub (toB st.bindings)).sub σ := fun t => (sub_sub _ _ t).symm
  have hbind : ∀ b ∈ st.bindings, b.sub τ ∈ I := by
    intro b hb
    obtain ⟨n, u, rfl⟩ := hB.keys b hb
    rw [eqT_sub, hI.eq _ _ (vars_sub_ground hτ _) (vars_sub_ground hτ _), hsub u, ← toB_binding hB hb]
    rfl
  refine ⟨τ, ⟨hτ, fun c hc => ?_⟩, ?_⟩
  · obtain ⟨ha, heq⟩ := hbody c hc
    by_cases hf : fnIs "=" c = true
    · obtain ⟨X, Y, rfl⟩ := heq hf
      exact hbind _ ((C48_bindings A hr _).2 ⟨hin hc, X, Y, rfl⟩)
    · obtain ⟨y, hy, hyd⟩ := h3 c (hin hc) ha (by simpa using hf)
      have hcy : c.sub τ = y.sub σ := by rw [hsub, ← (callB_toB hB hy).1]
      have hyy : y.sub τ = y.sub σ := by rw [hsub, callB_idem hB hy]
      rw [hcy]
      rcases hyd with hyd | ⟨rfl, hyd⟩ | ⟨X, rfl⟩ | ⟨X, rfl⟩
      · exact hσ.2 y hyd
      · rw [← hyy]
        exact C48_checked A hI.eq hI.exact hr hτ hbind y hyd (hks rfl y hyd).1 (hks rfl y hyd).2
      · simpa using hI.bound (X.sub σ) (vars_sub_ground hσ.1 _)
      · simpa using hI.free (X.sub σ) (vars_sub_ground hσ.1 _)
  · rw [hsub, ← (callB_toB hB h1).1]

end Call

/-! ### The propagator without merging of free variables -/

theorem noMerge_apart {v : Nat} {E : Env} {L : Set Nat} {D : List Tm} (hv : v ∈ L) (A : Apart E L D) :
    Apart (noMerge v E) L D where
  body r hr n hn := by
    simp only [noMerge, List.mem_append, List.mem_singleton] at hr
    rcases hr with hr | rfl
    · exact A.body r hr n hn
    · simp at hn; subst hn; exact hv
  head r hr n hn := by
    simp only [noMerge, List.mem_append, List.mem_singleton] at hr
    rcases hr with hr | rfl
    · exact A.head r hr n hn
    · simp [FAIL] at hn
  inputs := A.inputs
  blt := A.blt
  hooks := A.hooks

theorem noMerge_standard {v : Nat} {E : Env} {I : Set Tm} (h : Standard E I) : Standard (noMerge v E) I :=
  ⟨h.eq, h.bound, h.free, h.exact⟩

mutual
theorem recBound_mem : ∀ (t x : Tm), x ∈ recBound t → ∃ u, x = .app [fnc "$bound", u] ∧ vars u ⊆ vars t
  | .var _, x, h => by simp [recBound] at h
  | .con _, x, h => by simp [recBound] at h
  | .app [], x, h => by simp [recBound] at h
  | .app (g :: as), x, h => by
    rw [recBound] at h
    rcases List.mem_append.1 h with h | h
    · split at h
      · cases h
      · exact ⟨_, List.mem_singleton.1 h, fun _ h => h⟩
    · obtain ⟨u, hu, hv⟩ := recBoundL_mem as x h
      refine ⟨u, hu, fun n hn => ?_⟩
      have := hv hn
      rw [vars_app, mem_varsL]
      obtain ⟨a, ha, hn⟩ := mem_varsL.1 this
      exact ⟨a, List.mem_cons_of_mem _ ha, hn⟩
theorem recBoundL_mem : ∀ (as : List Tm) (x : Tm), x ∈ recBoundL as → ∃ u, x = .app [fnc "$bound", u] ∧ vars u ⊆ varsL as
  | [], x, h => by simp [recBoundL] at h
  | a :: as, x, h => by
    rw [recBoundL] at h
    rcases List.mem_append.1 h with h | h
    · obtain ⟨u, hu, hv⟩ := recBound_mem a x h
      exact ⟨u, hu, fun n hn => mem_varsL.2 ⟨a, List.mem_cons_self, hv hn⟩⟩
    · obtain ⟨u, hu, hv⟩ := recBoundL_mem as x h
      refine ⟨u, hu, fun n hn => ?_⟩
      obtain ⟨b, hb, hn⟩ := mem_varsL.1 (hv hn)
      exact mem_varsL.2 ⟨b, List.mem_cons_of_mem _ hb, hn⟩
end

/-- The hook of `Rewrites` introduces no variables, and what it adds holds if all ground terms are bound. -/
theorem boundHook_ok {L : Set Nat} {I : Set Tm} (hI : ∀ t, vars t = ∅ → .app [fnc "$bound", t] ∈ I) :
    (∀ q, Avoids L q → ∀ x ∈ boundHook q, Avoids L x) ∧
    ∀ (q : Tm) (σ : Nat → Tm), Propagate.Ground σ → ∀ x ∈ boundHook q, x.sub σ ∈ I := by
  have key : ∀ q x, x ∈ boundHook q → ∃ u, x = .app [fnc "$bound", u] ∧ vars u ⊆ vars q := by
    intro q x hx
    unfold boundHook at hx
    split at hx
    · exact recBound_mem q x hx
    · cases hx
  constructor
  · intro q hq x hx n hn
    obtain ⟨u, rfl, hu⟩ := key q x hx
    exact hq n (hu (by simpa using hn))
  · intro q σ hσ x hx
    obtain ⟨u, rfl, _⟩ := key q x hx
    simpa using hI (u.sub σ) (vars_sub_ground hσ u)

/-! ### Property C53 -/

section C53
variable {E : Env} {I : Set Tm} {L : Set Nat} {dc ui afm : Bool} {R : Ty}

/-- **C53, simplification loses nothing**: every item of a type is an item of the simplified type, whatever
the options. -/
theorem C53_simplify_superset (A : Apart E L R.2) (M : Model E I) {hd : Tm} {bd : List Tm}
    (h : Call E dc ui afm R (.ty hd bd)) : Den I R ⊆ Den I (hd, bd) := by
  rintro x ⟨σ, hσ, rfl⟩
  obtain ⟨h1, h2⟩ := call_sup A M h hσ
  exact ⟨σ, h1, h2.symm⟩

/-- **C53, simplification adds nothing**, if the bindings are in solved form, and no `ks` or `ws` constraint
was marked as checked when checked constraints are dropped. -/
theorem C53_simplify_exact (A : Apart E L R.2) (hI : Standard E I)
    (hbody : ∀ c ∈ R.2, isApp c = true ∧ (fnIs "=" c = true → ∃ X Y, c = eqT X Y)) {st : St}
    (hr : Returns E R.2 (some st)) (hB : Solved st.bindings)
    (hks : dc = true → ∀ c ∈ st.checked, fnIs "ks" c = false ∧ fnIs "ws" c = false)
    {f : Nat} {hd : Tm} {bd : List Tm} (e : finish f dc ui afm R st = .ty hd bd) :
    Den I (hd, bd) ⊆ Den I R := by
  rintro x ⟨σ, hσ, rfl⟩
  obtain ⟨τ, h1, h2⟩ := finish_sub A hI hbody hr hB hks e hσ
  exact ⟨τ, h1, h2.symm⟩

theorem insts_none {B checked ch : List Tm} {h : Option Tm} (e : insts dc ui afm B checked h ch = .none) :
    afm = false ∧ ∃ y ∈ ch, fnIs "$free" y = true := by
  have hret : ∀ drop, ret h ch drop ≠ .none := by
    intro drop
    unfold ret
    split <;> simp
  have hfree : ∀ X, X ∈ args0 "$free" ch → ∃ y ∈ ch, fnIs "$free" y = true := by
    intro X hX
    obtain ⟨y, hy, e⟩ := List.mem_filterMap.1 hX
    refine ⟨y, hy, ?_⟩
    split at e
    · next g x l =>
      split at e
      · next hg =>
        unfold fnIs at hg ⊢
        split at hg
        · next heq => cases heq; exact hg
        · cases hg
      · cases e
    · cases e
  unfold insts at e
  simp only at e
  split at e
  · split at e
    · exact absurd e (hret _)
    · next hafm =>
      refine ⟨by simpa using hafm, ?_⟩
      split at e
      · next h => obtain ⟨X, hX, _⟩ := List.any_eq_true.1 h; exact hfree X hX
      · split at e
        · next h => obtain ⟨X, hX, _⟩ := List.any_eq_true.1 h; exact hfree X hX
        · split at e
          · next h =>
            obtain ⟨y, _, h⟩ := List.any_eq_true.1 h
            obtain ⟨X, hX, _⟩ := List.any_eq_true.1 h
            exact hfree X hX
          · exact absurd e (hret _)
  · exact absurd e (hret _)

/-- **C53, a type simplified to `None` is empty**, unless an equality between different compound terms was
met, or (only if free variables may not be merged) some constraint says that something is free. -/
theorem C53_simplify_none (A : Apart E L R.2) (M : Model E I) (h : Call E dc ui afm R .none) :
    Den I R = ∅ ∨ (∃ st, Run E R.2 st ∧ ∃ d ∈ st.chart, Odd d) ∨
      (afm = false ∧ ∃ f st, Returns E R.2 (some st) ∧ ∃ x ∈ st.chart, ∃ y, callB st.bindings f x = some y ∧
        fnIs "$free" y = true) := by
  generalize ho : Res.none = o at h
  cases h with
  | fail hr =>
    refine (C48_fail A M hr).imp (fun h => ?_) .inl
    rw [Set.eq_empty_iff_forall_notMem]
    rintro x ⟨σ, hσ, _⟩
    exact h σ hσ
  | @done f st hr _ =>
    refine .inr (.inr ?_)
    have e := ho.symm
    unfold finish at e
    split at e
    · cases e
    · next ch hch =>
      rw [allSome_eq_some] at hch
      split at e
      · obtain ⟨h1, y, hy, hfr⟩ := insts_none e
        refine ⟨h1, f, st, hr, ?_⟩
        have : some y ∈ ch.map some := List.mem_map_of_mem (List.mem_dedup.1 hy)
        rw [← hch] at this
        obtain ⟨x, hx, hxy⟩ := List.mem_map.1 this
        exact ⟨x, (List.mem_filter.1 hx).1, y, hxy, hfr⟩
      · cases e

/-- **C53, subsumption.**  If `covers(r, s)` holds then every item of `s` is an item of `r`, provided that in
the propagation for `T` (the constraints of both types, with the heads equated) the bindings are in solved
form and no `ks` or `ws` constraint is checked, and, if `s` is simplified to `None`, that its propagation meets
no equality between different compound terms. -/
theorem C53_covers {v : Nat} (hv : v ∈ L) {r s : Ty} {f : Nat} {sc : List Tm} {st : St} {Rr S : Res}
    (A : Apart E L (s.2 ++ r.2 ++ sc)) (M : Model E I) (hI : Standard E I)
    (hbody : ∀ c ∈ s.2 ++ r.2 ++ sc, isApp c = true ∧ (fnIs "=" c = true → ∃ X Y, c = eqT X Y))
    (hS : Call E true true true s S)
    (hodd : S = .none → ∀ st, Run E s.2 st → ∀ d ∈ st.chart, ¬ Odd d)
    (hT : Returns (noMerge v E) (s.2 ++ r.2 ++ sc) (some st)) (hB : Solved st.bindings)
    (hks : ∀ c ∈ st.checked, fnIs "ks" c = false ∧ fnIs "ws" c = false)
    (h : verdict S Rr (finish f true true false (r.1, s.2 ++ r.2 ++ sc) st) = some true) : Den I s ⊆ Den I r := by
  have As : Apart E L s.2 := ⟨A.body, A.head, fun c hc => A.inputs c (by simp [hc]), A.blt, A.hooks⟩
  cases S with
  | none =>
    rcases C53_simplify_none As M hS with h1 | ⟨st, h1, d, h2, h3⟩ | ⟨h1, _⟩
    · rw [h1]; exact Set.empty_subset _
    · exact absurd h3 (hodd rfl st h1 d h2)
    · cases h1
  | oof => cases Rr <;> simp [verdict] at h
  | err => cases Rr <;> simp [verdict] at h
  | ty hS' bS =>
    rintro x ⟨σ, hσ, rfl⟩
    obtain ⟨h1, h2⟩ := call_sup As M hS hσ
    cases Rr with
    | none => simp [verdict] at h
    | oof => simp [verdict] at h
    | err => simp [verdict] at h
    | ty hR bR =>
      cases e : finish f true true false (r.1, s.2 ++ r.2 ++ sc) st with
      | none => rw [e] at h; simp [verdict] at h
      | oof => rw [e] at h; simp [verdict] at h
      | err => rw [e] at h; simp [verdict] at h
      | ty hT' bT =>
        rw [e] at h
        simp only [verdict, Option.some.injEq, Bool.and_eq_true, decide_eq_true_eq, List.all_eq_true] at h
        obtain ⟨rfl, hbs⟩ := h
        obtain ⟨τ, h3, h4⟩ := finish_sub (R := (r.1, s.2 ++ r.2 ++ sc)) (noMerge_apart hv A) (noMerge_standard hI) hbody
          hT hB (fun _ => hks) e ⟨hσ.1, fun c hc => h1.2 c (hbs c hc)⟩
        refine ⟨τ, ⟨h3.1, fun c hc => h3.2 c (by simp [hc])⟩, ?_⟩
        rw [← h2]
        exact h4.symm

theorem scons_sat {x y : Tm} {f : Nat} {s : Heap} (e : Subst.mguF f (fun _ => none) x y = some (some s)) {τ : Nat → Tm}
    (hτ : x.sub τ = y.sub τ) {n : Nat} {u : Tm} (hn : s n = some u) : τ n = u.sub τ := by
  obtain ⟨σ0, h1, _, _, h4⟩ := Subst.C05_mgu e
  have h5 : σ0 n = u.sub σ0 := by
    obtain ⟨M1, hM1⟩ := h1 (.var n)
    obtain ⟨M2, hM2⟩ := h1 u
    have e1 := hM1 (max M1 M2 + 1) (by omega)
    have e2 := hM2 (max M1 M2) (by omega)
    simp only [Subst.callF, derefF, hn] at e1 e2
    rw [e2] at e1
    exact (Option.some.inj e1).symm
  have h6 := h4 τ hτ (.var n)
  simp only [sub_var] at h6
  rw [← h6, h5, h4 τ hτ u]

/-- The two types have no variable in common (`intersect` renames `s`). -/
def Disj (r s : Ty) : Prop := ∀ n, (n ∈ vars r.1 ∨ n ∈ varsL r.2) → (n ∈ vars s.1 ∨ n ∈ varsL s.2) → False

theorem common {r s : Ty} (hd : Disj r s) {x : Tm} (hr : x ∈ Den I r) (hs : x ∈ Den I s) :
    ∃ τ, Solution I (r.2 ++ s.2) τ ∧ r.1.sub τ = x ∧ s.1.sub τ = x := by
  classical
  obtain ⟨σ1, ⟨g1, h1⟩, rfl⟩ := hr
  obtain ⟨σ2, ⟨g2, h2⟩, e⟩ := hs
  let τ : Nat → Tm := fun n => if n ∈ vars r.1 ∨ n ∈ varsL r.2 then σ1 n else σ2 n
  have c1 : ∀ t : Tm, (∀ n ∈ vars t, n ∈ vars r.1 ∨ n ∈ varsL r.2) → t.sub τ = t.sub σ1 := fun t ht =>
    sub_congr fun n hn => if_pos (ht n hn)
  have c2 : ∀ t : Tm, (∀ n ∈ vars t, n ∈ vars s.1 ∨ n ∈ varsL s.2) → t.sub τ = t.sub σ2 := fun t ht =>
    sub_congr fun n hn => if_neg fun h => hd n h (ht n hn)
  refine ⟨τ, ⟨fun n => ?_, fun c hc => ?_⟩, c1 _ fun n hn => .inl hn, ?_⟩
  · show vars (if _ then _ else _) = _
    split
    · exact g1 n
    · exact g2 n
  · rcases List.mem_append.1 hc with hc | hc
    · rw [c1 c fun n hn => .inr (mem_varsL.2 ⟨c, hc, hn⟩)]; exact h1 c hc
    · rw [c2 c fun n hn => .inr (mem_varsL.2 ⟨c, hc, hn⟩)]; exact h2 c hc
  · rw [c2 _ fun n hn => .inl hn, e]

theorem common_sc {r s : Ty} (hd : Disj r s) {x : Tm} (hr : x ∈ Den I r) (hs : x ∈ Den I s)
    (heq : ∀ a b, vars a = ∅ → vars b = ∅ → (eqT a b ∈ I ↔ a = b)) {f : Nat} {σ : Heap} {sc : List Tm}
    (e : Subst.mguF f (fun _ => none) r.1 s.1 = some (some σ)) (hsc : Scons σ sc) :
    x ∈ Den I (r.1, r.2 ++ s.2 ++ sc) := by
  obtain ⟨τ, h1, h2, h3⟩ := common hd hr hs
  refine ⟨τ, ⟨h1.1, fun c hc => ?_⟩, h2.symm⟩
  rcases List.mem_append.1 hc with hc | hc
  · exact h1.2 c hc
  · obtain ⟨n, u, hn, rfl⟩ := (hsc c).1 hc
    rw [eqT_sub, heq _ _ (vars_sub_ground h1.1 _) (vars_sub_ground h1.1 _)]
    exact scons_sat e (h2.trans h3.symm) hn

/-- **C53, intersection.**  What two types have in common belongs to the type that `intersect` returns. -/
theorem C53_intersect {v : Nat} {r s : Ty} (hd : Disj r s)
    (A : ∀ sc f σ, Subst.mguF f (fun _ => none) r.1 s.1 = some (some σ) → Scons σ sc →
      Apart (if afm then E else noMerge v E) L (r.2 ++ s.2 ++ sc))
    (M : Model (if afm then E else noMerge v E) I) {h : Tm} {b : List Tm}
    (hi : Intersect v E r s afm (.ty h b)) : Den I r ∩ Den I s ⊆ Den I (h, b) := by
  rintro x ⟨hr, hs⟩
  cases hi with
  | mk e hsc hc => exact C53_simplify_superset (A _ _ _ e hsc) M hc (common_sc hd hr hs M.eq e hsc)

/-- **C53, disjointness.**  If `intersect` returns `None` then the types have nothing in common, unless an
equality between different compound terms was met or, if free variables may not be merged, some constraint
says that something is free. -/
theorem C53_disjoint {v : Nat} {r s : Ty} (hd : Disj r s)
    (A : ∀ sc f σ, Subst.mguF f (fun _ => none) r.1 s.1 = some (some σ) → Scons σ sc →
      Apart (if afm then E else noMerge v E) L (r.2 ++ s.2 ++ sc))
    (M : Model (if afm then E else noMerge v E) I) (hi : Intersect v E r s afm .none) :
    Den I r ∩ Den I s = ∅ ∨ ∃ sc,
      (∃ st, Run (if afm then E else noMerge v E) (r.2 ++ s.2 ++ sc) st ∧ ∃ d ∈ st.chart, Odd d) ∨
      (afm = false ∧ ∃ f st, Returns (noMerge v E) (r.2 ++ s.2 ++ sc) (some st) ∧ ∃ x ∈ st.chart, ∃ y,
        callB st.bindings f x = some y ∧ fnIs "$free" y = true) := by
  cases hi with
  | clash e =>
    refine .inl (Set.eq_empty_iff_forall_notMem.2 ?_)
    rintro x ⟨hr, hs⟩
    obtain ⟨τ, _, h2, h3⟩ := common hd hr hs
    exact (Subst.C05_fail e).1 rfl ⟨τ, h2.trans h3.symm⟩
  | mk e hsc hc =>
    rcases C53_simplify_none (A _ _ _ e hsc) M hc with h1 | h1 | ⟨rfl, h1⟩
    · refine .inl (Set.eq_empty_iff_forall_notMem.2 ?_)
      rintro x ⟨hr, hs⟩
      have := common_sc hd hr hs M.eq e hsc
      rw [h1] at this
      exact this
    · exact .inr ⟨_, .inl h1⟩
    · exact .inr ⟨_, .inr ⟨rfl, by simpa using h1⟩⟩

end C53

/-! ### Examples and violations -/

section Violations

/-- A call computed for one iteration order (set iteration in insertion order, `pop` given by indices). -/
theorem mkCall {E : Env} {dc ui afm : Bool} {R : Ty} {res : Res} (f : Nat) (is : List Nat) (hres : res ≠ .oof)
    (h : (match Propagate.call E f R.2 is with
      | .ok st => decide (st.agenda = [] ∧ finish f dc ui afm R st = res)
      | _ => false) = true) : Call E dc ui afm R res := by
  cases e : Propagate.call E f R.2 is with
  | ok st =>
    rw [e] at h
    obtain ⟨h1, h2⟩ := of_decide_eq_true h
    have := Call.done (dc := dc) (ui := ui) (afm := afm) (f := f) (call_some e h1) (by rw [h2]; exact hres)
    rwa [h2] at this
  | _ => rw [e] at h; cases h

private def X : Tm := .var 0
private def Y : Tm := .var 1
private def three : Tm := .con (.int 3)
def t1 (s : String) (x : Tm) : Tm := .app [fnc s, x]
private def t2 (s : String) (x y : Tm) : Tm := .app [fnc s, x, y]
private def nil' : Tm := .app [fnc "$nil"]
def env (rules : List (Tm × List Tm)) : Env := cp rules (fun _ => [.wait]) (fun _ => false) fun _ _ => []

/-- The true constraints: equations, instantiation states, and those in `F`. -/
def std (F : Set Tm) : Set Tm := {t | (∃ a, t = eqT a a) ∨ (∃ a, t = t1 "$bound" a) ∨ (∃ a, t = t1 "$free" a) ∨ t ∈ F}

private theorem std_standard {rs : List (Tm × List Tm)} {F : Set Tm} (hF : ∀ a b, eqT a b ∉ F) :
    Standard (env rs) (std F) where
  eq a b _ _ := by
    constructor
    · rintro (⟨c, h⟩ | ⟨c, h⟩ | ⟨c, h⟩ | h)
      · simp only [eqT, Tm.app.injEq, List.cons.injEq, and_true, true_and] at h
        rw [h.1, h.2]
      · simp [eqT, t1] at h
      · simp [eqT, t1] at h
      · exact absurd h (hF a b)
    · rintro rfl; exact .inl ⟨a, rfl⟩
  bound t _ := .inr (.inl ⟨t, rfl⟩)
  free t _ := .inr (.inr (.inl ⟨t, rfl⟩))
  exact q eqs σ h := by simp [env, cp] at h

theorem std_model {rs : List (Tm × List Tm)} {F : Set Tm} (hF : ∀ a b, eqT a b ∉ F) (hfail : FAIL ∉ F)
    (hrs : ∀ r ∈ rs, ∀ θ, Propagate.Ground θ → (∀ b ∈ r.2, b.sub θ ∈ std F) → r.1.sub θ ∈ std F) :
    Model (env rs) (std F) where
  rules := hrs
  nofail := by
    rintro (⟨c, h⟩ | ⟨c, h⟩ | ⟨c, h⟩ | h)
    · simp [FAIL, eqT] at h
    · simp [FAIL, t1] at h
    · simp [FAIL, t1] at h
    · exact hfail h
  eq := (std_standard (rs := rs) hF).eq
  blt q σ _ _ c hc := by
    simp only [env, cp, List.mem_singleton] at hc
    subst hc
    exact ⟨by simp, fun _ h => (nomatch h)⟩
  hooks q σ hσ _ x hx := (boundHook_ok (L := ∅) (std_standard (rs := rs) hF).bound).2 q σ hσ x hx

theorem env_apart {rs : List (Tm × List Tm)} {L : Set Nat} {D : List Tm}
    (h1 : ∀ r ∈ rs, ∀ n ∈ varsL r.2, n ∈ L) (h2 : ∀ r ∈ rs, ∀ n ∈ vars r.1, n ∈ varsL r.2)
    (h3 : ∀ c ∈ D, Avoids L c) : Apart (env rs) L D where
  body := h1
  head := h2
  inputs := h3
  blt q _ eqs h := by simp [env, cp] at h
  hooks := (boundHook_ok (L := L) (std_standard (rs := rs) (F := ∅) (by simp)).bound).1

private theorem scons_one {n : Nat} {u : Tm} : Scons (fun k => if k = n then some u else none) [eqT (.var n) u] := by
  intro e
  simp only [List.mem_singleton]
  constructor
  · rintro rfl; exact ⟨n, u, by simp, rfl⟩
  · rintro ⟨m, w, hm, rfl⟩
    split at hm
    · next h => cases hm; rw [h]
    · cases hm

private theorem mgu_one {s : String} {n : Nat} {u : Tm} (h : u = three ∨ ∃ m, m ≠ n ∧ u = .var m) :
    Subst.mguF 10 (fun _ => none) (t1 s (.var n)) (t1 s u) = some (some fun k => if k = n then some u else none) := by
  rcases h with rfl | ⟨m, hm, rfl⟩
  · simp [Subst.mguF, Subst.mguLF, Subst.mbindF, t1, three, occursF]
    funext k; simp [Heap.upd]
  · simp [Subst.mguF, Subst.mguLF, Subst.mbindF, t1, three, occursF, hm, hm.symm]
    funext k; simp [Heap.upd]

/-- **C53 violated, `ks`**: with the rule `ks([])`, the type `f(X) :- ks(X)` is found to cover `f(Y)`, although
`f(3)` belongs to the second type only: `ks` constraints always count as checked and are dropped. -/
theorem C53_ks :
    let E := env [(t1 "ks" nil', [])]
    let I := std {t1 "ks" nil'}
    Model E I ∧ Standard E I ∧ Covers 30 E (t1 "f" X, [t1 "ks" X]) (t1 "f" Y, []) true ∧
      t1 "f" three ∈ Den I (t1 "f" Y, []) ∧ t1 "f" three ∉ Den I (t1 "f" X, [t1 "ks" X]) := by
  have hF : ∀ a b, eqT a b ∉ ({t1 "ks" nil'} : Set Tm) := by intro a b h; simp [eqT, t1] at h
  refine ⟨std_model hF (by simp [FAIL, t1]) ?_, std_standard hF, ?_, ⟨fun _ => three, ⟨by intro n; simp [three], by simp⟩,
    by simp [t1, Y]⟩, ?_⟩
  · intro r hr θ _ _
    simp only [List.mem_singleton] at hr
    subst hr
    exact .inr (.inr (.inr (by simp [t1, nil'])))
  · refine .mk (mgu_one (.inr ⟨1, by simp, rfl⟩)) scons_one
      (R := .ty (t1 "f" Y) []) (S := .ty (t1 "f" Y) []) (T := .ty (t1 "f" Y) [])
      (mkCall 20 [0, 0, 0, 0] (by simp) ?_) (mkCall 20 [0] (by simp) ?_) (mkCall 20 [0, 0, 0, 0] (by simp) ?_) (by simp) ?_
    · decide +kernel
    · decide +kernel
    · decide +kernel
    · decide +kernel
  · rintro ⟨σ, ⟨_, h⟩, e⟩
    have h := h _ List.mem_cons_self
    simp only [t1, X, sub_app, List.map_cons, sub_con, sub_var, List.map_nil, Tm.app.injEq, List.cons.injEq, and_true,
      true_and] at e h
    rw [← e] at h
    rcases h with ⟨c, h⟩ | ⟨c, h⟩ | ⟨c, h⟩ | h
    · simp [eqT] at h
    · simp [t1] at h
    · simp [t1] at h
    · simp [t1, three, nil'] at h

/-- **C53 violated, equalities**: `f(X) :- X = 3` may be found to cover `f(Y)`, because of the two bindings of
`X` only the last one is kept. -/
theorem C53_equality :
    let E := env []
    let I := std ∅
    Model E I ∧ Standard E I ∧ Covers 30 E (t1 "f" X, [eqT X three]) (t1 "f" Y, []) true ∧
      t1 "f" nil' ∈ Den I (t1 "f" Y, []) ∧ t1 "f" nil' ∉ Den I (t1 "f" X, [eqT X three]) := by
  refine ⟨std_model (by simp) (by simp) (by simp), std_standard (by simp), ?_,
    ⟨fun _ => nil', ⟨by intro n; simp [nil'], by simp⟩, by simp [t1, Y]⟩, ?_⟩
  · refine .mk (mgu_one (.inr ⟨1, by simp, rfl⟩)) scons_one
      (R := .ty (t1 "f" Y) []) (S := .ty (t1 "f" Y) []) (T := .ty (t1 "f" Y) [])
      (mkCall 20 [0, 0] (by simp) ?_) (mkCall 20 [] (by simp) ?_) (mkCall 20 [0, 0] (by simp) ?_) (by simp) ?_
    · decide +kernel
    · decide +kernel
    · decide +kernel
    · decide +kernel
  · rintro ⟨σ, ⟨hg, h⟩, e⟩
    have h := h _ List.mem_cons_self
    rw [eqT_sub, (std_standard (rs := []) (F := ∅) (by simp)).eq _ _ (vars_sub_ground hg _) (vars_sub_ground hg _)] at h
    simp only [t1, X, sub_app, List.map_cons, sub_con, sub_var, List.map_nil, Tm.app.injEq, List.cons.injEq, and_true,
      true_and] at e h
    rw [← e] at h
    simp [nil', three] at h

/-- **C53 violated, functional dependencies**: with the rule `W = W' :- word(W, I), word(W', I)` that the file
gives as its example of a functional dependency, simplifying `f(X) :- word(X, Y)` does not return: the
propagator derives `X = X`, and the substitution `{X: X}` is applied forever (`RecursionError`). -/
theorem C53_fundep :
    let E := env [(eqT (.var 10) (.var 11), [t2 "word" (.var 10) (.var 12), t2 "word" (.var 11) (.var 12)])]
    ∃ st, Returns E [t2 "word" X Y] (some st) ∧ ∀ f, finish f false true true (t1 "f" X, [t2 "word" X Y]) st = .oof := by
  have h : Propagate.call (env [(eqT (.var 10) (.var 11), [t2 "word" (.var 10) (.var 12), t2 "word" (.var 11) (.var 12)])])
      20 [t2 "word" X Y] [0, 0] = .ok ⟨[t2 "word" X Y, eqT X X], [], [eqT X X], [eqT X X]⟩ := by decide +kernel
  refine ⟨_, call_some h rfl, fun f => ?_⟩
  have hX : ∀ f, callB [eqT X X] f X = none := by
    intro f
    induction f with
    | zero => rfl
    | succ f ih =>
      rw [callB.eq_def]
      have : lookup [eqT X X] X = some X := by decide +kernel
      simp only [this, ih]
  have hc : callB [eqT X X] f (t2 "word" X Y) = none := by
    cases f with
    | zero => rfl
    | succ f =>
      rw [callB.eq_def]
      simp only
      have : lookup [eqT X X] (t2 "word" X Y) = none := by decide +kernel
      rw [this]
      simp only [t2, List.map_cons, hX f, List.map_nil]
      cases f with
      | zero => simp [callB, allSome]
      | succ f =>
        have : lookup [eqT X X] (fnc "word") = none := by decide +kernel
        simp [callB, allSome, this]
  unfold finish
  simp [isApp, fnIs, t2, eqT] at hc ⊢
  simp [hc, allSome]

/-- `f(X) :- n(X)` covers `f(3)` when `n(3)` is known, and indeed contains it. -/
example :
    let E := env [(t1 "n" three, [])]
    let I := std {t1 "n" three}
    Covers 30 E (t1 "f" X, [t1 "n" X]) (t1 "f" three, []) true ∧ Den I (t1 "f" three, []) ⊆ Den I (t1 "f" X, [t1 "n" X]) := by
  have hF : ∀ a b, eqT a b ∉ ({t1 "n" three} : Set Tm) := by intro a b h; simp [eqT, t1] at h
  have hM : Model (env [(t1 "n" three, [])]) (std {t1 "n" three}) := std_model hF (by simp [FAIL, t1]) (by
    intro r hr θ _ _
    simp only [List.mem_singleton] at hr
    subst hr
    exact .inr (.inr (.inr (by simp [t1, three]))))
  have hS : Call (env [(t1 "n" three, [])]) true true true (t1 "f" three, []) (.ty (t1 "f" three) [t1 "n" three]) :=
    mkCall 20 [0] (by simp) (by decide +kernel)
  have hR : Call (env [(t1 "n" three, [])]) true true true (t1 "f" X, [t1 "n" X] ++ [eqT X three])
      (.ty (t1 "f" three) [t1 "n" three]) := mkCall 20 [0, 0, 0] (by simp) (by decide +kernel)
  have h : Propagate.call (noMerge 30 (env [(t1 "n" three, [])])) 20 ([] ++ [t1 "n" X] ++ [eqT X three]) [0, 0, 0] =
      .ok ⟨[t1 "n" X, eqT X three, t1 "n" three], [], [eqT X three], [eqT X three]⟩ := by decide +kernel
  have hf : finish 20 true true false (t1 "f" X, [] ++ [t1 "n" X] ++ [eqT X three])
      ⟨[t1 "n" X, eqT X three, t1 "n" three], [], [eqT X three], [eqT X three]⟩ =
      .ty (t1 "f" three) [t1 "n" three] := by decide +kernel
  have hT := call_some h rfl
  refine ⟨.mk (mgu_one (.inl rfl)) scons_one hR hS (.done (f := 20) hT (fun e => ?_)) (fun e => ?_)
    (by decide +kernel), ?_⟩
  · exact absurd (hf.symm.trans e) (by simp)
  · exact absurd (hf.symm.trans e) (by simp)
  refine C53_covers (L := {30}) (v := 30) (f := 20) (by simp) (sc := [eqT X three]) (env_apart (by simp) (by simp [t1, three]) ?_) hM
    (std_standard hF) ?_ hS ?_ hT ?_ ?_ (Rr := .ty (t1 "f" three) [t1 "n" three]) (by decide +kernel)
  · intro c hc n hn
    simp only [List.nil_append, List.cons_append, List.mem_cons, List.not_mem_nil, or_false] at hc
    rcases hc with rfl | rfl
    · simp [t1, X] at hn; simp [hn]
    · simp [eqT, X, three] at hn; simp [hn]
  · intro c hc
    simp only [List.nil_append, List.cons_append, List.mem_cons, List.not_mem_nil, or_false] at hc
    rcases hc with rfl | rfl
    · simp [t1, isApp, fnIs]
    · exact ⟨rfl, fun _ => ⟨_, _, rfl⟩⟩
  · intro h; cases h
  · refine ⟨?_, ?_, ?_⟩
    · intro b hb; exact ⟨0, three, List.mem_singleton.1 hb⟩
    · intro n u u' h h'
      simp only [List.mem_singleton, eqT, Tm.app.injEq, List.cons.injEq, and_true, true_and] at h h'
      rw [h.2, h'.2]
    · intro n u h
      simp only [List.mem_singleton, eqT, Tm.app.injEq, List.cons.injEq, and_true, true_and] at h
      refine ⟨3, ?_⟩
      rw [h.1]
      decide +kernel
  · intro c hc
    simp only [List.mem_singleton] at hc
    subst hc
    decide +kernel

end Violations

end Rewrites
end Verif
