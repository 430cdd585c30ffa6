/-
Property C81: mapping derivations between the programs of a network.
-/
import Verif.DTransform
import Verif.DUnfoldThm
import Verif.Fold

set_option linter.unusedSectionVars false
set_option linter.unusedSimpArgs false

namespace Verif
namespace DTransform

variable {A X : Type} [DecidableEq A]

/-! ### Specification -/

/-- `p` is `q` or one of the programs that `q` was made from -/
inductive Anc : Obj A → Obj A → Prop
  | refl (p : Obj A) : Anc p p
  | step {p q : Obj A} (i : Nat) (c : A) : Anc p q → Anc p (.step i c q)

/-- A network: programs `N`, with all programs they were made from, no two of them equal under `==`; `V p` are the derivations of `p`; the mapping of each
transformation takes the derivations of the parent to those of the program one-to-one, and its reverse mapping undoes it. -/
structure Good (g : Net A X) (N : Obj A → Prop) (V : Obj A → D A X → Prop) : Prop where
  closed : ∀ i c p, N (.step i c p) → N p
  distinct : ∀ p q, N p → N q → p.cls = q.cls → p = q
  node : ∀ p d, V p d → ∃ i x ks, d = .node p i x ks
  fwd : ∀ i c p, N (.step i c p) → ∀ d, V p d → ∃ e, g.fwd (.step i c p) d = some e ∧ V (.step i c p) e
  bwd : ∀ i c p, N (.step i c p) → ∀ e, V (.step i c p) e → ∃ d, g.bwd (.step i c p) e = some d ∧ V p d
  inverse : ∀ i c p, N (.step i c p) → ∀ d e, V p d → V (.step i c p) e → (g.fwd (.step i c p) d = some e ↔ g.bwd (.step i c p) e = some d)

/-- `e` is what becomes of `d` on some walk through the network from `s` to `t`, each step of which is the mapping of one transformation, in one of its
two directions -/
inductive Walk (g : Net A X) (N : Obj A → Prop) (s : Obj A) (d : D A X) : Obj A → D A X → Prop
  | here : Walk g N s d s d
  | down (i : Nat) (c : A) (p : Obj A) (e e' : D A X) : Walk g N s d p e → N (.step i c p) → g.fwd (.step i c p) e = some e' → Walk g N s d (.step i c p) e'
  | up (i : Nat) (c : A) (p : Obj A) (e e' : D A X) : Walk g N s d (.step i c p) e → N (.step i c p) → g.bwd (.step i c p) e = some e' → Walk g N s d p e'

/-! ### Histories -/

theorem mem_transforms {p q : Obj A} : p ∈ q.transforms ↔ Anc p q := by
  induction q with
  | root i c =>
    simp only [Obj.transforms, List.mem_singleton]
    exact ⟨fun h => h ▸ .refl _, fun h => by cases h; rfl⟩
  | step i c q ih =>
    simp only [Obj.transforms, List.mem_cons, ih]
    constructor
    · rintro (rfl | h)
      · exact .refl _
      · exact .step i c h
    · intro h
      cases h with
      | refl => exact .inl rfl
      | step _ _ h => exact .inr h

theorem within_iff {c : A} {q : Obj A} : within c q = true ↔ ∃ p, Anc p q ∧ p.cls = c := by
  simp only [within, List.any_eq_true, decide_eq_true_eq, mem_transforms]

theorem anc_trans {p q r : Obj A} (h : Anc p q) (k : Anc q r) : Anc p r := by
  induction k with
  | refl => exact h
  | step i c _ ih => exact .step i c ih

theorem anc_size {p q : Obj A} (h : Anc p q) : p.transforms.length ≤ q.transforms.length := by
  induction h with
  | refl => exact le_rfl
  | step i c _ ih => simp only [Obj.transforms, List.length_cons]; omega

theorem anc_antisymm {p q : Obj A} (h : Anc p q) (k : Anc q p) : p = q := by
  cases h with
  | refl => rfl
  | step i c h =>
    have h1 := anc_size h
    have h2 := anc_size k
    simp only [Obj.transforms, List.length_cons] at h2
    omega

theorem anc_top (p : Obj A) : Anc p.top p := by
  induction p with
  | root i c => exact .refl _
  | step i c p ih => exact .step i c ih

theorem step_ne (i : Nat) (c : A) (p : Obj A) : Obj.step i c p ≠ p := fun h => by
  have := congrArg (fun q => q.transforms.length) h
  simp [Obj.transforms] at this

theorem top_anc {p q : Obj A} (h : Anc p q) : p.top = q.top := by
  induction h with
  | refl => rfl
  | step i c _ ih => exact ih

section
variable {g : Net A X} {N : Obj A → Prop} {V : Obj A → D A X → Prop}

theorem Good.anc (hg : Good g N V) {p q : Obj A} (h : Anc p q) (hq : N q) : N p := by
  induction h with
  | refl => exact hq
  | step i c _ ih => exact ih (hg.closed i c _ hq)

theorem Good.within_iff (hg : Good g N V) {p q : Obj A} (hp : N p) (hq : N q) : within p.cls q = true ↔ Anc p q := by
  rw [DTransform.within_iff]
  constructor
  · rintro ⟨r, h1, h2⟩
    rw [hg.distinct r p (hg.anc h1 hq) hp h2] at h1
    exact h1
  · exact fun h => ⟨p, h, rfl⟩

theorem Walk.trans {s t u : Obj A} {d e e' : D A X} (h : Walk g N s d t e) (k : Walk g N t e u e') : Walk g N s d u e' := by
  induction k with
  | here => exact h
  | down i c p e1 e2 _ hn hf ih => exact .down i c p e1 e2 ih hn hf
  | up i c p e1 e2 _ hn hf ih => exact .up i c p e1 e2 ih hn hf

/-! ### Walks are coherent -/

/-- carried up to the root -/
def Rise (g : Net A X) : Obj A → D A X → D A X → Prop
  | .root _ _, d, r => d = r
  | .step i c p, d, r => ∃ e, g.bwd (.step i c p) d = some e ∧ Rise g p e r

theorem Good.rise (hg : Good g N V) : ∀ {p : Obj A} {d : D A X}, N p → V p d → ∃ r, Rise g p d r := by
  intro p
  induction p with
  | root i c => exact fun _ _ => ⟨_, rfl⟩
  | step i c p ih =>
    intro d hn hv
    obtain ⟨e, h1, h2⟩ := hg.bwd i c p hn d hv
    obtain ⟨r, hr⟩ := ih (hg.closed i c p hn) h2
    exact ⟨r, e, h1, hr⟩

theorem Good.rise_inj (hg : Good g N V) : ∀ {p : Obj A} {d e r : D A X}, N p → V p d → V p e → Rise g p d r → Rise g p e r → d = e := by
  intro p
  induction p with
  | root i c => intro d e r _ _ _ h1 h2; rw [Rise] at h1 h2; rw [h1, h2]
  | step i c p ih =>
    rintro d e r hn hd he ⟨d', h1, h2⟩ ⟨e', h3, h4⟩
    have hd' : V p d' := by
      obtain ⟨m, hm, hv⟩ := hg.bwd i c p hn d hd
      rw [h1, Option.some.injEq] at hm; rwa [hm]
    have he' : V p e' := by
      obtain ⟨m, hm, hv⟩ := hg.bwd i c p hn e he
      rw [h3, Option.some.injEq] at hm; rwa [hm]
    have := ih (hg.closed i c p hn) hd' he' h2 h4
    subst this
    have e1 := (hg.inverse i c p hn d' d hd' hd).2 h1
    have e2 := (hg.inverse i c p hn d' e hd' he).2 h3
    rw [e1, Option.some.injEq] at e2
    exact e2

theorem Good.walk (hg : Good g N V) {s t : Obj A} {d e : D A X} (hn : N s) (hd : V s d) (h : Walk g N s d t e) :
    N t ∧ V t e ∧ ∀ r, Rise g s d r → Rise g t e r := by
  induction h with
  | here => exact ⟨hn, hd, fun r h => h⟩
  | down i c p e e' _ hN hf ih =>
    obtain ⟨-, h2, h3⟩ := ih
    obtain ⟨m, hm, hv⟩ := hg.fwd i c p hN e h2
    rw [hf, Option.some.injEq] at hm
    subst hm
    exact ⟨hN, hv, fun r hr => ⟨e, (hg.inverse i c p hN e e' h2 hv).1 hf, h3 r hr⟩⟩
  | up i c p e e' _ hN hf ih =>
    obtain ⟨-, h2, h3⟩ := ih
    obtain ⟨m, hm, hv⟩ := hg.bwd i c p hN e h2
    rw [hf, Option.some.injEq] at hm
    subst hm
    refine ⟨hg.closed i c p hN, hv, fun r hr => ?_⟩
    obtain ⟨m, hm, hr⟩ := h3 r hr
    rw [hf, Option.some.injEq] at hm
    subst hm
    exact hr

theorem Good.coherent (hg : Good g N V) {s t : Obj A} {d e e' : D A X} (hn : N s) (hd : V s d) (h : Walk g N s d t e) (h' : Walk g N s d t e') :
    e = e' := by
  obtain ⟨r, hr⟩ := hg.rise hn hd
  obtain ⟨h1, h2, h3⟩ := hg.walk hn hd h
  obtain ⟨-, k2, k3⟩ := hg.walk hn hd h'
  exact hg.rise_inj h1 h2 k2 (h3 r hr) (k3 r hr)

/-! ### What `Transform` does -/

theorem T_here (g : Net A X) (f : Nat) (s : Obj A) (i : Nat) (x : X) (ks : List (D A X)) : T g (f + 1) (.node s i x ks) s = some (.node s i x ks) := by
  have h : within s.cls s = true := within_iff.2 ⟨s, .refl s, rfl⟩
  simp [T, h]

/-- one step up -/
theorem Good.T_up1 (hg : Good g N V) {i : Nat} {c : A} {p : Obj A} (hn : N (.step i c p)) {d : D A X} (hd : V (.step i c p) d) (f : Nat) :
    T g (f + 1) d p = g.bwd (.step i c p) d := by
  obtain ⟨j, x, ks, rfl⟩ := hg.node _ d hd
  have hp := hg.closed i c p hn
  have hne := step_ne i c p
  have h1 : within p.cls (.step i c p) = true := (hg.within_iff hp hn).2 (.step i c (.refl p))
  have h2 : within (Obj.step i c p).cls p = false := by
    rw [Bool.eq_false_iff]
    exact fun h => hne (anc_antisymm ((hg.within_iff hn hp).1 h) (.step i c (.refl p)))
  have h3 : (Obj.step i c p).cls ≠ p.cls := fun h => hne (hg.distinct _ _ hn hp h)
  rw [T, if_neg (by simp [Obj.top]), if_neg (by simp [h1]), if_neg hne, if_neg h3, if_neg (by simp [h2])]
  simp [Obj.parent]

/-- one step down -/
theorem Good.T_down1 (hg : Good g N V) {i : Nat} {c : A} {p : Obj A} (hn : N (.step i c p)) {d : D A X} (hd : V p d) (f : Nat) :
    T g (f + 1) d (.step i c p) = g.fwd (.step i c p) d := by
  obtain ⟨j, x, ks, rfl⟩ := hg.node _ d hd
  have hp := hg.closed i c p hn
  have hne := (step_ne i c p).symm
  have h1 : within p.cls (.step i c p) = true := (hg.within_iff hp hn).2 (.step i c (.refl p))
  have h3 : p.cls ≠ (Obj.step i c p).cls := fun h => hne (hg.distinct _ _ hp hn h)
  rw [T, if_neg (by simp [Obj.top]), if_neg (by simp [h1]), if_neg hne, if_neg h3, if_pos h1]
  simp [Obj.parent]

theorem Good.T_up (hg : Good g N V) {t : Obj A} : ∀ {s : Obj A}, Anc t s → N s → ∀ {d : D A X}, V s d →
    ∃ e, Evt (fun f => T g f d t = some e) ∧ Walk g N s d t e := by
  intro s h
  induction h with
  | refl =>
    intro hn d hd
    obtain ⟨j, x, ks, rfl⟩ := hg.node _ d hd
    exact ⟨_, Evt.of_succ fun f => T_here g f _ j x ks, .here⟩
  | @step p i c h ih =>
    intro hn d hd
    have hp := hg.closed i c p hn
    obtain ⟨e, he, hv⟩ := hg.bwd i c p hn d hd
    obtain ⟨e', h1, h2⟩ := ih hp hv
    have hw : Walk g N (.step i c p) d t e' := Walk.trans (.up i c p d e .here hn he) h2
    refine ⟨e', ?_, hw⟩
    by_cases hpt : p = t
    · subst hpt
      have : e' = e := hg.coherent hp hv h2 .here
      subst this
      exact Evt.of_succ fun f => by rw [hg.T_up1 hn hd, he]
    · obtain ⟨j, x, ks, rfl⟩ := hg.node _ d hd
      have ht := hg.anc h hp
      have hne : Obj.step i c p ≠ t := fun hs => hpt (anc_antisymm (hs ▸ .step i c (.refl p)) h)
      have h3 : within t.cls (.step i c p) = true := (hg.within_iff ht hn).2 (.step i c h)
      have h4 : within (Obj.step i c p).cls t = false := by
        rw [Bool.eq_false_iff]
        exact fun hs => hne (anc_antisymm ((hg.within_iff hn ht).1 hs) (.step i c h))
      have h5 : (Obj.step i c p).cls ≠ t.cls := fun hs => hne (hg.distinct _ _ hn ht hs)
      have h6 : p.cls ≠ t.cls := fun hs => hpt (hg.distinct _ _ hp ht hs)
      refine Evt.succ (h1.and (Evt.of_succ (p := fun f => T g f (.node (.step i c p) j x ks) p = g.bwd (.step i c p) (.node (.step i c p) j x ks)) fun f => hg.T_up1 hn hd f) |>.mono fun f hf => ?_)
      rw [T, if_neg (by rw [top_anc h]; simp [Obj.top]), if_neg (by simp [h3]), if_neg hne, if_neg h5, if_neg (by simp [h4])]
      simp only [Obj.parent, if_neg h6, hf.2, he, hf.1]

theorem Good.T_down (hg : Good g N V) {s : Obj A} {d : D A X} (hd : V s d) : ∀ {t : Obj A}, Anc s t → N t →
    ∃ e, Evt (fun f => T g f d t = some e) ∧ Walk g N s d t e := by
  intro t h
  induction h with
  | refl =>
    intro hn
    obtain ⟨j, x, ks, rfl⟩ := hg.node _ d hd
    exact ⟨_, Evt.of_succ fun f => T_here g f _ j x ks, .here⟩
  | @step p i c h ih =>
    intro hn
    have hp := hg.closed i c p hn
    have hs := hg.anc h hp
    obtain ⟨e, h1, h2⟩ := ih hp
    obtain ⟨-, hv, -⟩ := hg.walk hs hd h2
    obtain ⟨e', he, hv'⟩ := hg.fwd i c p hn e hv
    refine ⟨e', ?_, .down i c p e e' h2 hn he⟩
    by_cases hsp : s = p
    · subst hsp
      have : e = d := hg.coherent hs hd h2 .here
      subst this
      exact Evt.of_succ fun f => by rw [hg.T_down1 hn hd, he]
    · have hne : s ≠ Obj.step i c p := fun hh => hsp (anc_antisymm h (hh ▸ .step i c (.refl p)))
      have h3 : within s.cls (.step i c p) = true := (hg.within_iff hs hn).2 (.step i c h)
      have h5 : s.cls ≠ (Obj.step i c p).cls := fun hh => hne (hg.distinct _ _ hs hn hh)
      have h6 : s.cls ≠ p.cls := fun hh => hsp (hg.distinct _ _ hs hp hh)
      obtain ⟨j, x, ks, rfl⟩ := hg.node _ d hd
      refine Evt.succ (h1.and (Evt.of_succ (p := fun f => T g f e (.step i c p) = g.fwd (.step i c p) e) fun f => hg.T_down1 hn hv f) |>.mono fun f hf => ?_)
      rw [T, if_neg (by rw [top_anc h]; simp [Obj.top]), if_neg (by simp [h3]), if_neg hne, if_neg h5, if_pos h3]
      simp only [Obj.parent, if_neg h6, hf.1, hf.2, he]

/-- **C81 (coherence).**  In a network without equal programs, `Transform` maps every derivation of `s` to a derivation of `t`, for all programs with the same root,
and the result is what becomes of the derivation on every walk through the network from `s` to `t`. -/
theorem C81_coherent (hg : Good g N V) {s t : Obj A} (hs : N s) (ht : N t) (hr : s.top = t.top) {d : D A X} (hd : V s d) :
    ∃ e, Evt (fun f => T g f d t = some e) ∧ V t e ∧ ∀ e', Walk g N s d t e' ↔ e' = e := by
  have key : ∃ e, Evt (fun f => T g f d t = some e) ∧ Walk g N s d t e := by
    by_cases h1 : Anc t s
    · exact hg.T_up h1 hs hd
    by_cases h2 : Anc s t
    · exact hg.T_down hd h2 ht
    · obtain ⟨e1, a1, a2⟩ := hg.T_up (anc_top s) hs hd
      obtain ⟨b1, b2, -⟩ := hg.walk hs hd a2
      obtain ⟨e2, c1, c2⟩ := hg.T_down b2 (hr ▸ anc_top t) ht
      refine ⟨e2, ?_, a2.trans c2⟩
      obtain ⟨j, x, ks, rfl⟩ := hg.node _ d hd
      refine Evt.succ ((a1.and c1).mono fun f hf => ?_)
      have h3 : within t.cls s = false := by rw [Bool.eq_false_iff]; exact fun h => h1 ((hg.within_iff ht hs).1 h)
      have h4 : within s.cls t = false := by rw [Bool.eq_false_iff]; exact fun h => h2 ((hg.within_iff hs ht).1 h)
      rw [T, if_neg (by rw [hr]; simp), if_pos (by simp [h3, h4])]
      simp only [hf.1, hf.2]
  obtain ⟨e, h1, h2⟩ := key
  exact ⟨e, h1, (hg.walk hs hd h2).2.1, fun e' => ⟨fun h => hg.coherent hs hd h h2, fun h => h ▸ h2⟩⟩

/-- fuel does not change the result -/
theorem evt_det {d e e' : D A X} {t : Obj A} (h : Evt fun f => T g f d t = some e) (h' : Evt fun f => T g f d t = some e') : e = e' := by
  obtain ⟨f, hf⟩ := (h.and h').exists'
  rw [hf.1] at hf
  exact Option.some.inj hf.2

/-- **C81 (round trips and compositions).**  Mapping to `t` and on to `u` is mapping to `u`, whatever `t`; so mapping to `t` and back gives the derivation, and different derivations
are mapped to different ones. -/
theorem C81_compose (hg : Good g N V) {s t u : Obj A} (hs : N s) (ht : N t) (hu : N u) (hr : s.top = t.top) (hr' : t.top = u.top) {d : D A X} (hd : V s d) :
    ∃ e e', Evt (fun f => T g f d t = some e) ∧ Evt (fun f => T g f e u = some e') ∧ Evt (fun f => T g f d u = some e') := by
  obtain ⟨e, h1, h2, h3⟩ := C81_coherent hg hs ht hr hd
  obtain ⟨e1, k1, k2, k3⟩ := C81_coherent hg ht hu hr' h2
  obtain ⟨e2, l1, l2, l3⟩ := C81_coherent hg hs hu (hr.trans hr') hd
  have : e1 = e2 := (l3 e1).1 (((h3 e).2 rfl).trans ((k3 e1).2 rfl))
  subst this
  exact ⟨e, e1, h1, k1, l1⟩

theorem C81_round_trip (hg : Good g N V) {s t : Obj A} (hs : N s) (ht : N t) (hr : s.top = t.top) {d e : D A X} (hd : V s d)
    (he : Evt fun f => T g f d t = some e) : Evt fun f => T g f e s = some d := by
  obtain ⟨e1, e2, h1, h2, h3⟩ := C81_compose hg hs ht hs hr hr.symm hd
  obtain ⟨e3, k1, -, k3⟩ := C81_coherent hg hs hs rfl hd
  have := evt_det he h1
  subst this
  have e4 := evt_det h3 k1
  have e5 := (k3 d).1 .here
  rw [e4, ← e5] at h2
  exact h2

theorem C81_bijective (hg : Good g N V) {s t : Obj A} (hs : N s) (ht : N t) (hr : s.top = t.top) :
    (∀ d d' e, V s d → V s d' → Evt (fun f => T g f d t = some e) → Evt (fun f => T g f d' t = some e) → d = d') ∧
    ∀ e, V t e → ∃ d, V s d ∧ Evt fun f => T g f d t = some e := by
  refine ⟨fun d d' e hd hd' h h' => ?_, fun e he => ?_⟩
  · exact evt_det (C81_round_trip hg hs ht hr hd h) (C81_round_trip hg hs ht hr hd' h')
  · obtain ⟨d, h1, h2, -⟩ := C81_coherent hg ht hs hr.symm he
    exact ⟨d, h2, C81_round_trip hg ht hs hr.symm he h1⟩

/-- **C81 (what is kept).**  Whatever the mapping of each transformation keeps (the item, the value, the leaves), `Transform` keeps. -/
theorem C81_keeps (hg : Good g N V) {M : Type} (m : D A X → M)
    (hm : ∀ i c p d e, N (.step i c p) → V p d → g.fwd (.step i c p) d = some e → m e = m d)
    {s t : Obj A} (hs : N s) (ht : N t) (hr : s.top = t.top) {d e : D A X} (hd : V s d) (he : Evt fun f => T g f d t = some e) : m e = m d := by
  obtain ⟨e', h1, -, h3⟩ := C81_coherent hg hs ht hr hd
  have := evt_det he h1
  subst this
  have hw := (h3 e).2 rfl
  clear he h1 h3 ht hr
  induction hw with
  | here => rfl
  | down i c p e e' hw hN hf ih => rw [hm i c p e e' hN (hg.walk hs hd hw).2.1 hf, ih]
  | up i c p e e' hw hN hf ih =>
    have hv := (hg.walk hs hd hw).2.1
    have hv' : V p e' := by
      obtain ⟨k, hk, hkv⟩ := hg.bwd i c p hN e hv
      rw [hf, Option.some.injEq] at hk; rwa [hk]
    rw [← ih, hm i c p e' e hN hv' ((hg.inverse i c p hN e' e hv' hv).2 hf)]

end

/-- **C81 (different roots).**  Between programs whose roots are not equal `Transform` raises. -/
theorem C81_roots (g : Net A X) (f : Nat) (s t : Obj A) (i : Nat) (x : X) (ks : List (D A X)) (h : t.top.cls ≠ s.top.cls) :
    T g f (.node s i x ks) t = none := by
  cases f with
  | zero => rfl
  | succ f => rw [T, if_pos h]

/-! ### Equal programs -/

section Equal
open DUnfold Unfold Tm

theorem each_iff {h : D A X → Option (D A X)} {ds es : List (D A X)} : each h ds = some es ↔ List.Forall₂ (fun d e => h d = some e) ds es := by
  induction ds generalizing es with
  | nil => simp [each, eq_comm]
  | cons d ds ih =>
    rw [List.forall₂_cons_left_iff, each]
    constructor
    · intro h1
      split at h1
      · rename_i z zs e1 e2
        exact ⟨z, zs, e1, ih.1 e2, (Option.some.inj h1).symm⟩
      · cases h1
    · rintro ⟨z, zs, e1, e2, rfl⟩
      rw [e1, ih.2 e2]

/-- **C81 (equal programs are aligned).**  Between different objects that are equal, `Transform` renumbers by the alignment, below as well; what they were made from plays
no part. -/
theorem C81_aligned (g : Net A X) (f : Nat) (s t : Obj A) (i : Nat) (x : X) (ks : List (D A X)) (h : s.cls = t.cls) (ht : s.top.cls = t.top.cls) (hne : s ≠ t)
    (e : D A X) : T g (f + 1) (.node s i x ks) t = some e ↔
      ∃ j ys, g.align s t i = some j ∧ List.Forall₂ (fun k y => T g f k t = some y) ks ys ∧ g.make t j x ys = some e := by
  have h1 : within t.cls s = true := within_iff.2 ⟨s, .refl s, h⟩
  rw [T, if_neg (by simp [ht]), if_neg (by simp [h1]), if_neg hne, if_pos h]
  constructor
  · intro h2
    split at h2
    · rename_i j ys e1 e2
      exact ⟨j, ys, e1, each_iff.1 e2, h2⟩
    · cases h2
  · rintro ⟨j, ys, e1, e2, e3⟩
    rw [e1, each_iff.2 e2]
    exact e3

/-- **C81 (lists).**  A list is mapped member by member, and a leaf is left alone. -/
theorem C81_lists (g : Net A X) (f : Nat) (ds es : List (D A X)) (t : Obj A) :
    TL g f ds t = some es ↔ List.Forall₂ (fun d e => T g f d t = some e) ds es := each_iff

theorem C81_leaf (g : Net A X) (f : Nat) (x : X) (t : Obj A) : T g (f + 1) (.base x) t = some (.base x) := rfl

/-- `goal += a.  x += a.  a += 1.` -/
def pA : Prog Nat := ⟨[⟨at' "goal" [], [.sub (at' "a" [])]⟩, ⟨at' "x" [], [.sub (at' "a" [])]⟩, ⟨at' "a" [], [.val 1]⟩], []⟩

/-- the result of unfolding `x += a` -/
def pB : Prog Nat := ⟨[⟨at' "goal" [], [.sub (at' "a" [])]⟩, ⟨at' "a" [], [.val 1]⟩, ⟨at' "x" [], [.val 1]⟩], []⟩

/-- the result of folding it back: the rules of `pA` in another order -/
def pA' : Prog Nat := ⟨[⟨at' "x" [], [.sub (at' "a" [])]⟩, ⟨at' "goal" [], [.sub (at' "a" [])]⟩, ⟨at' "a" [], [.val 1]⟩], []⟩

def oA : Obj Nat := .root 0 0
def oB : Obj Nat := .step 1 1 oA
def oA' : Obj Nat := .step 2 0 oB

/-- the rules of the three programs -/
def rulesAB (p : Obj Nat) : List (WRule Nat) := if p = oA then pA.rules else if p = oB then pB.rules else pA'.rules

/-- the derivation of `x` in `pA'` and in `pB` -/
def dA' : DUnfold.Tree Nat := .node 0 (at' "x" []) [.node 2 (at' "a" []) [.const 1]]
def dB : DUnfold.Tree Nat := .node 2 (at' "x" []) [.const 1]

theorem notBi_a : ¬ IsBi ltOps (at' "a" []) := by
  rintro ⟨c, x, y, e, h⟩
  simp at e

/-- **C81 (equal programs are confused).**  `B` is made from `A` by unfolding and `A'` from `B` by folding back, so `A'` has the rules of `A` in another order and is equal to it.  Mapping
the derivation of `x` in `A'` to `B` raises, although `B` has that derivation: `Transform` takes `A'` for the parent of `B` and calls `B.transform`, which
looks up the rule numbers of `A'` in `A`. -/
theorem C81_equal_programs (g : Net Nat (Tm ⊕ Nat)) {c : Cfg Nat} (hc : cfg 20 ltOps (7 : Nat) 4 pA 1 0 = some c)
    (hg : g.fwd oB = unfoldFwd c rulesAB oB) :
    c.new = pB.rules ∧ (Fold.fold pB ⟨at' "x" [], [.sub (at' "a" [])]⟩ {2}).rules = pA'.rules ∧ pA'.rules.Perm pA.rules ∧
      Valid ltOps pA'.rules dA' ∧ Valid ltOps pB.rules dB ∧ dB.leaves = dA'.leaves ∧
      ∀ f, T g f (label oA' dA') oB = none := by
  have hc' : cfg 20 ltOps (7 : Nat) 4 pA 1 0 = some ⟨1, 0, pA.rules, [⟨at' "goal" [], [.sub (at' "a" [])]⟩, ⟨at' "a" [], [.val 1]⟩],
    [(⟨at' "x" [], [.val 1]⟩, some 2)]⟩ := rfl
  rw [hc', Option.some.injEq] at hc
  subst hc
  refine ⟨rfl, ?_, ?_, ?_, ?_, rfl, ?_⟩
  · decide +kernel
  · exact List.Perm.swap _ _ _
  · refine .node (r := pA'.rules[0]) rfl ⟨.var, rfl, rfl⟩ (.cons (.node _ _ _ notBi_a) .nil) ?_
    intro d hd; simp at hd; subst hd
    refine .node (r := pA'.rules[2]) rfl ⟨.var, rfl, rfl⟩ (.cons (.val _) .nil) ?_
    intro d hd; simp at hd; subst hd; exact .const _
  · refine .node (r := pB.rules[2]) rfl ⟨.var, rfl, rfl⟩ (.cons (.val _) .nil) ?_
    intro d hd; simp at hd; subst hd; exact .const _
  · intro f
    cases f with
    | zero => rfl
    | succ f =>
      have : T g (f + 1) (label oA' dA') oB = g.fwd oB (label oA' dA') := by
        simp [T, label, dA', labelL, oA', oB, oA, Obj.top, Obj.cls, within, Obj.transforms, Obj.parent]
      rw [this, hg]
      rfl

end Equal

/-! ### A network -/

section Example

/-- two programs made from one root, and a program made from the first of these -/
def n0 : Obj Nat := .root 0 0
def n1 : Obj Nat := .step 1 1 n0
def n2 : Obj Nat := .step 2 2 n1
def n3 : Obj Nat := .step 3 3 n0

/-- each step shifts the rule numbers -/
def shiftN : Net Nat Unit where
  fwd q d := match d with
    | .node _ i x ks => some (.node q (i + q.cls) x ks)
    | d => some d
  bwd q d := match q, d with
    | .step _ c p, .node _ i x ks => if c ≤ i then some (.node p (i - c) x ks) else none
    | _, d => some d
  align _ _ i := some i
  make p i x ks := some (.node p i x ks)

/-- rule numbers start at the sum of the shifts -/
def off : Obj Nat → Nat
  | .root _ _ => 0
  | .step _ c p => c + off p

def shiftV (p : Obj Nat) (d : D Nat Unit) : Prop := ∃ i, off p ≤ i ∧ d = .node p i () []

theorem shift_good : Good shiftN (fun p => p ∈ [n0, n1, n2, n3]) shiftV where
  closed := by
    intro i c p h
    simp only [n0, n1, n2, n3, List.mem_cons, List.not_mem_nil, or_false, reduceCtorEq, Obj.step.injEq, false_or] at h ⊢
    rcases h with ⟨rfl, rfl, rfl⟩ | ⟨rfl, rfl, rfl⟩ | ⟨rfl, rfl, rfl⟩ <;> simp
  distinct := fun p q hp hq => (by decide : ∀ p ∈ [n0, n1, n2, n3], ∀ q ∈ [n0, n1, n2, n3], p.cls = q.cls → p = q) p hp q hq
  node := by rintro p d ⟨i, -, rfl⟩; exact ⟨_, _, _, rfl⟩
  fwd := by
    rintro i c p - d ⟨j, hj, rfl⟩
    exact ⟨_, rfl, _, by simp only [off, Obj.cls]; omega, rfl⟩
  bwd := by
    rintro i c p - d ⟨j, hj, rfl⟩
    simp only [off] at hj
    exact ⟨.node p (j - c) () [], by simp only [shiftN]; rw [if_pos (by omega)], _, by omega, rfl⟩
  inverse := by
    rintro i c p - d e ⟨j, hj, rfl⟩ ⟨k, hk, rfl⟩
    simp only [off] at hk
    simp only [shiftN, Obj.cls]
    rw [if_pos (by omega)]
    simp only [Option.some.injEq, D.node.injEq, true_and, and_true]
    omega

example := C81_coherent shift_good (s := n2) (t := n3) (by decide) (by decide) rfl (d := .node n2 5 () []) ⟨5, by decide, rfl⟩
example := C81_compose shift_good (s := n2) (t := n3) (u := n1) (by decide) (by decide) (by decide) rfl rfl (d := .node n2 5 () []) ⟨5, by decide, rfl⟩
example := C81_bijective shift_good (s := n2) (t := n3) (by decide) (by decide) rfl

/-- from `n2` over the root to `n3` -/
example (f : Nat) : T shiftN (f + 9) (.node n2 5 () []) n3 = some (.node n3 5 () []) := by
  simp [T, shiftN, n0, n1, n2, n3, within, Obj.top, Obj.cls, Obj.transforms, Obj.parent]

example (f : Nat) : T shiftN f (.node n2 5 () []) (.root 7 7) = none := C81_roots _ _ _ _ _ _ _ (by decide)

/-- equal objects with different histories -/
example (f : Nat) : T shiftN (f + 2) (.node n0 5 () [.node n0 1 () [], .base ()]) (.step 9 0 n1) =
    some (.node (.step 9 0 n1) 5 () [.node (.step 9 0 n1) 1 () [], .base ()]) :=
  (C81_aligned shiftN (f + 1) n0 (.step 9 0 n1) 5 () _ rfl rfl (by decide) _).2 ⟨5, _, rfl,
    .cons ((C81_aligned shiftN f n0 (.step 9 0 n1) 1 () _ rfl rfl (by decide) _).2 ⟨1, _, rfl, .nil, rfl⟩) (.cons rfl .nil), rfl⟩

end Example

end DTransform
end Verif
