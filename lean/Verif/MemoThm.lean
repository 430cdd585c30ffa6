/-
Property C50: memoized methods are transparent, and `FrozenBag` compares multisets.
-/
import Verif.Memo
import Mathlib.Data.List.Perm.Basic
import Mathlib.Data.List.Sort
import Mathlib.Data.String.Basic

set_option linter.unusedSectionVars false
set_option linter.unusedSimpArgs false

namespace Verif
namespace Memo

variable {F A V R T : Type} [DecidableEq F] [DecidableEq A]

/-! ### Specification: evaluation without any cache -/

/-- the result of a method body when every call evaluates the body of the called method afresh -/
inductive Plain (impl : Call F A → Comp F A V) : Comp F A V → V → Prop
  | ret (v : V) : Plain impl (.ret v) v
  | call {c : Call F A} {next : V → Comp F A V} {w v : V} : Plain impl (impl c) w → Plain impl (next w) v →
      Plain impl (.call c next) v

/-- what the operations do to the program, ignoring caches -/
def effect (p : Prog R T) : Op R T F A → Prog R T
  | .call _ => p
  | .add r => { p with rules := p.rules ++ [r] }
  | .replace i r => { p with rules := p.rules.set i r }
  | .pop i => { p with rules := p.rules.eraseIdx i }
  | .setInputs t => { p with inputs := t }
  | .setOutputs t => { p with outputs := t }

/-- keyword arguments may be given in any order -/
def KwOrder (impl : Prog R T → Call F A → Comp F A V) : Prop :=
  ∀ p f a k k', List.Perm k k' → impl p ⟨f, a, k⟩ = impl p ⟨f, a, k'⟩

/-- the methods look at the rules only -/
def RulesOnly (impl : Prog R T → Call F A → Comp F A V) : Prop :=
  ∀ rs i o i' o', impl ⟨rs, i, o⟩ = impl ⟨rs, i', o'⟩

def IsDecl : Op R T F A → Prop
  | .setInputs _ => True
  | .setOutputs _ => True
  | _ => False

/-! ### Lemmas -/

theorem plain_unique {impl : Call F A → Comp F A V} {b : Comp F A V} {v w : V} (h : Plain impl b v) (h' : Plain impl b w) :
    v = w := by
  induction h generalizing w with
  | ret v => cases h'; rfl
  | call _ _ i1 i2 => cases h' with
    | call a b => have := i1 a; subst this; exact i2 b

theorem insertKw_perm (p : String × A) (l : List (String × A)) : (insertKw p l).Perm (p :: l) := by
  induction l with
  | nil => exact .refl _
  | cons q l ih =>
    simp only [insertKw]
    split
    · exact .refl _
    · exact (ih.cons q).trans (.swap _ _ _)

theorem sortKw_perm (l : List (String × A)) : (sortKw l).Perm l := by
  induction l with
  | nil => exact .refl _
  | cons p l ih => exact (insertKw_perm p _).trans (ih.cons p)

theorem sortKw_sorted (l : List (String × A)) : (sortKw l).Pairwise fun a b => a.1 ≤ b.1 := by
  induction l with
  | nil => exact .nil
  | cons p l ih =>
    simp only [sortKw]
    generalize sortKw l = m at ih ⊢
    induction m with
    | nil => simp [insertKw]
    | cons q m ihm =>
      simp only [insertKw]
      split
      · next h =>
        refine .cons ?_ ih
        intro a ha
        rcases List.mem_cons.1 ha with rfl | ha
        · exact h
        · exact le_trans h (List.rel_of_pairwise_cons ih ha)
      · next h =>
        refine .cons ?_ (ihm ih.of_cons)
        intro a ha
        rcases List.mem_cons.1 ((insertKw_perm p m).mem_iff.1 ha) with rfl | ha
        · exact le_of_lt (not_le.1 h)
        · exact List.rel_of_pairwise_cons ih ha

theorem key_eq {c c' : Call F A} (h : key c = key c') :
    c.func = c'.func ∧ c.args = c'.args ∧ c.kwargs.Perm c'.kwargs := by
  simp only [key, Call.mk.injEq] at h
  exact ⟨h.1, h.2.1, ((sortKw_perm _).symm.trans (h.2.2 ▸ .refl _)).trans (sortKw_perm _)⟩

/-- everything in the cache is what the method would return now -/
def Sound (impl : Call F A → Comp F A V) (d : Dict (Call F A) V) : Prop :=
  ∀ c v, d.get (key c) = some v → Plain impl (impl c) v

theorem sound_set {impl : Call F A → Comp F A V} (hk : ∀ f a k k', List.Perm k k' → impl ⟨f, a, k⟩ = impl ⟨f, a, k'⟩)
    {d : Dict (Call F A) V} (hs : Sound impl d) {c : Call F A} {v : V} (h : Plain impl (impl c) v) :
    Sound impl (d.set (key c) v) := by
  intro c' w hw
  rw [Dict.get_set] at hw
  split at hw
  · next e =>
    obtain ⟨e1, e2, e3⟩ := key_eq e
    obtain ⟨f, a, k⟩ := c
    obtain ⟨f', a', k'⟩ := c'
    simp only at e1 e2 e3
    subst e1; subst e2
    simp only [Option.some.injEq] at hw
    subst hw
    rw [← hk _ _ _ _ e3]; exact h
  · exact hs c' w hw

theorem run_sound {impl : Call F A → Comp F A V} (hk : ∀ f a k k', List.Perm k k' → impl ⟨f, a, k⟩ = impl ⟨f, a, k'⟩) :
    ∀ {f : Nat} {b : Comp F A V} {d d' : Dict (Call F A) V} {v : V}, Sound impl d → run impl f b d = some (v, d') →
      Plain impl b v ∧ Sound impl d' := by
  intro f
  induction f with
  | zero =>
    intro b d d' v hs e
    cases b with
    | ret w => simp [run] at e; obtain ⟨rfl, rfl⟩ := e; exact ⟨.ret _, hs⟩
    | call c n => simp [run] at e
  | succ f ih =>
    intro b d d' v hs e
    cases b with
    | ret w => simp [run] at e; obtain ⟨rfl, rfl⟩ := e; exact ⟨.ret _, hs⟩
    | call c n =>
      simp only [run] at e
      cases hc : d.get (key c) with
      | some w =>
        simp only [hc] at e
        obtain ⟨h1, h2⟩ := ih hs e
        exact ⟨.call (hs c w hc) h1, h2⟩
      | none =>
        simp only [hc] at e
        cases hi : run impl f (impl c) d with
        | none => simp [hi] at e
        | some q =>
          obtain ⟨w, d1⟩ := q
          simp only [hi] at e
          obtain ⟨h1, h2⟩ := ih hs hi
          obtain ⟨h3, h4⟩ := ih (sound_set hk h2 h1) e
          exact ⟨.call h1 h3, h4⟩

theorem run_mono {impl : Call F A → Comp F A V} : ∀ {f g : Nat} {b : Comp F A V} {d : Dict (Call F A) V} {q},
    run impl f b d = some q → f ≤ g → run impl g b d = some q := by
  intro f
  induction f with
  | zero =>
    intro g b d q e _
    cases b with
    | ret w => cases g <;> simpa [run] using e
    | call c n => simp [run] at e
  | succ f ih =>
    intro g b d q e hg
    obtain ⟨g, rfl⟩ : ∃ g', g = g' + 1 := ⟨g - 1, by omega⟩
    cases b with
    | ret w => simpa [run] using e
    | call c n =>
      simp only [run] at e ⊢
      cases hc : d.get (key c) with
      | some w => simp only [hc] at e ⊢; exact ih e (by omega)
      | none =>
        simp only [hc] at e ⊢
        cases hi : run impl f (impl c) d with
        | none => simp [hi] at e
        | some q =>
          simp only [hi] at e
          simp only [ih hi (show f ≤ g by omega)]
          exact ih e (by omega)

theorem run_total {impl : Call F A → Comp F A V} (hk : ∀ f a k k', List.Perm k k' → impl ⟨f, a, k⟩ = impl ⟨f, a, k'⟩)
    {b : Comp F A V} {v : V} (h : Plain impl b v) : ∀ d, Sound impl d → ∃ f d', run impl f b d = some (v, d') := by
  induction h with
  | ret v => intro d _; exact ⟨0, d, rfl⟩
  | @call c n w v h1 h2 i1 i2 =>
    intro d hs
    cases hc : d.get (key c) with
    | some u =>
      have := plain_unique (hs c u hc) h1
      subst this
      obtain ⟨f, d', e⟩ := i2 d hs
      exact ⟨f + 1, d', by simp only [run, hc]; exact e⟩
    | none =>
      obtain ⟨f, d1, e1⟩ := i1 d hs
      obtain ⟨g, d2, e2⟩ := i2 _ (sound_set hk (run_sound hk hs e1).2 h1)
      exact ⟨max f g + 1, d2, by
        simp only [run, hc, run_mono e1 (le_max_left f g)]
        exact run_mono e2 (le_max_right f g)⟩

theorem steps_append {impl : Prog R T → Call F A → Comp F A V} {f : Nat} : ∀ {os os' : List (Op R T F A)} {s s' : St R T F A V} {vs},
    steps impl f s (os ++ os') = some (s', vs) → ∃ s1 v1 v2, steps impl f s os = some (s1, v1) ∧
      steps impl f s1 os' = some (s', v2) ∧ vs = v1 ++ v2 := by
  intro os
  induction os with
  | nil => intro os' s s' vs e; exact ⟨s, [], vs, rfl, e, rfl⟩
  | cons o os ih =>
    intro os' s s' vs e
    simp only [List.cons_append, steps] at e ⊢
    cases h1 : step impl f s o with
    | none => simp [h1] at e
    | some q =>
      obtain ⟨s1, v⟩ := q
      simp only [h1] at e ⊢
      cases h2 : steps impl f s1 (os ++ os') with
      | none => simp [h2] at e
      | some q =>
        obtain ⟨s2, vs2⟩ := q
        simp only [h2, Option.some.injEq, Prod.mk.injEq] at e
        obtain ⟨rfl, rfl⟩ := e
        obtain ⟨s3, v1, v2, a, b, c⟩ := ih h2
        exact ⟨s3, v :: v1, v2, by simp only [a], b, by simp [c]⟩

theorem steps_inv {impl : Prog R T → Call F A → Comp F A V} (hk : KwOrder impl) {f : Nat} :
    ∀ {os : List (Op R T F A)} {s s' : St R T F A V} {vs}, (RulesOnly impl ∨ ∀ o ∈ os, ¬ IsDecl o) →
      Sound (impl s.prog) s.cache → steps impl f s os = some (s', vs) →
      Sound (impl s'.prog) s'.cache ∧ s'.prog = os.foldl effect s.prog := by
  intro os
  induction os with
  | nil => intro s s' vs _ hs e; simp [steps] at e; obtain ⟨rfl, rfl⟩ := e; exact ⟨hs, rfl⟩
  | cons o os ih =>
    intro s s' vs ho hs e
    simp only [steps] at e
    cases h1 : step impl f s o with
    | none => simp [h1] at e
    | some q =>
      obtain ⟨s1, v⟩ := q
      simp only [h1] at e
      cases h2 : steps impl f s1 os with
      | none => simp [h2] at e
      | some q =>
        obtain ⟨s2, vs2⟩ := q
        simp only [h2, Option.some.injEq, Prod.mk.injEq] at e
        obtain ⟨rfl, rfl⟩ := e
        have ho' : RulesOnly impl ∨ ∀ o ∈ os, ¬ IsDecl o := ho.imp id fun h o hm => h o (by simp [hm])
        have empty : ∀ p, Sound (impl p) ([] : Dict (Call F A) V) := fun p c v h => by simp at h
        suffices H : Sound (impl s1.prog) s1.cache ∧ s1.prog = effect s.prog o by
          obtain ⟨a, b⟩ := ih ho' H.1 h2
          exact ⟨a, by rw [List.foldl_cons, b, H.2]⟩
        cases o with
        | call c =>
          simp only [step] at h1
          cases hr : run (impl s.prog) f (.call c .ret) s.cache with
          | none => simp [hr] at h1
          | some q =>
            obtain ⟨w, d⟩ := q
            simp only [hr, Option.some.injEq, Prod.mk.injEq] at h1
            obtain ⟨rfl, rfl⟩ := h1
            exact ⟨(run_sound (hk _) hs hr).2, rfl⟩
        | add r => simp only [step, Option.some.injEq, Prod.mk.injEq] at h1; obtain ⟨rfl, rfl⟩ := h1; exact ⟨empty _, rfl⟩
        | replace i r => simp only [step, Option.some.injEq, Prod.mk.injEq] at h1; obtain ⟨rfl, rfl⟩ := h1; exact ⟨empty _, rfl⟩
        | pop i => simp only [step, Option.some.injEq, Prod.mk.injEq] at h1; obtain ⟨rfl, rfl⟩ := h1; exact ⟨empty _, rfl⟩
        | setInputs t =>
          simp only [step, Option.some.injEq, Prod.mk.injEq] at h1; obtain ⟨rfl, rfl⟩ := h1
          rcases ho with ho | ho
          · exact ⟨by rw [show impl { s.prog with inputs := t } = impl s.prog from ho _ _ _ _ _]; exact hs, rfl⟩
          · exact (ho (.setInputs t) (by simp) trivial).elim
        | setOutputs t =>
          simp only [step, Option.some.injEq, Prod.mk.injEq] at h1; obtain ⟨rfl, rfl⟩ := h1
          rcases ho with ho | ho
          · exact ⟨by rw [show impl { s.prog with outputs := t } = impl s.prog from ho _ _ _ _ _]; exact hs, rfl⟩
          · exact (ho (.setOutputs t) (by simp) trivial).elim

/-! ### Property C50 -/

/-- Memoization is transparent: on a new program object, after any history of calls and of rule
additions, replacements and removals, a memoized call returns what the undecorated method would return on
the program as it is then.  Methods that look at rules only may also be interleaved with changes of
the declarations. -/
theorem C50_transparent {impl : Prog R T → Call F A → Comp F A V} (hk : KwOrder impl) {f : Nat} {p : Prog R T}
    {os : List (Op R T F A)} {c : Call F A} {s : St R T F A V} {vs : List (Option V)}
    (ho : RulesOnly impl ∨ ∀ o ∈ os, ¬ IsDecl o) (e : steps impl f ⟨p, []⟩ (os ++ [.call c]) = some (s, vs)) :
    ∃ v, vs.getLast? = some (some v) ∧
      Plain (impl (os.foldl effect p)) (impl (os.foldl effect p) c) v ∧
      ∀ w, Plain (impl (os.foldl effect p)) (impl (os.foldl effect p) c) w → w = v := by
  obtain ⟨s1, v1, v2, e1, e2, rfl⟩ := steps_append e
  obtain ⟨h1, h2⟩ := steps_inv hk ho (fun c v h => by simp at h) e1
  simp only [steps, step] at e2
  cases hr : run (impl s1.prog) f (.call c .ret) s1.cache with
  | none => simp [hr] at e2
  | some q =>
    obtain ⟨w, d⟩ := q
    simp only [hr, Option.some.injEq, Prod.mk.injEq] at e2
    obtain ⟨-, rfl⟩ := e2
    have hp := (run_sound (hk _) h1 hr).1
    rw [h2] at hp
    cases hp with
    | call a b =>
      cases b
      exact ⟨w, by simp, a, fun u hu => plain_unique hu a⟩

/-- and it returns whenever the undecorated method does -/
theorem C50_total {impl : Prog R T → Call F A → Comp F A V} (hk : KwOrder impl) {f : Nat} {p : Prog R T}
    {os : List (Op R T F A)} {c : Call F A} {s : St R T F A V} {vs : List (Option V)} {v : V}
    (ho : RulesOnly impl ∨ ∀ o ∈ os, ¬ IsDecl o) (e : steps impl f ⟨p, []⟩ os = some (s, vs))
    (hv : Plain (impl (os.foldl effect p)) (impl (os.foldl effect p) c) v) :
    ∃ N, ∀ g ≥ N, ∃ s', step impl g s (.call c) = some (s', some v) := by
  obtain ⟨h1, h2⟩ := steps_inv hk ho (fun c v h => by simp at h) e
  simp only at h2
  rw [← h2] at hv
  obtain ⟨N, d, hN⟩ := run_total (hk _) (.call hv (.ret v)) s.cache h1
  exact ⟨N, fun g hg => ⟨⟨s.prog, d⟩, by simp only [step, run_mono hN hg]⟩⟩

/-- Calls that differ only in the order of their keyword arguments share a cache entry; calls that differ
in the function, in a positional argument or in a keyword argument do not. -/
theorem C50_key {c c' : Call F A} (hn : (c.kwargs.map Prod.fst).Nodup) :
    key c = key c' ↔ c.func = c'.func ∧ c.args = c'.args ∧ c.kwargs.Perm c'.kwargs := by
  refine ⟨key_eq, fun ⟨h1, h2, h3⟩ => ?_⟩
  simp only [key, Call.mk.injEq]
  refine ⟨h1, h2, ?_⟩
  have hp : (sortKw c.kwargs).Perm (sortKw c'.kwargs) := (sortKw_perm _).trans (h3.trans (sortKw_perm _).symm)
  refine hp.eq_of_pairwise (le := fun a b => a.1 ≤ b.1) ?_ (sortKw_sorted _) (sortKw_sorted _)
  intro a b ha hb hab hba
  have hab : a.1 = b.1 := le_antisymm hab hba
  have ha' := (sortKw_perm _).mem_iff.1 ha
  have hb' := h3.mem_iff.2 ((sortKw_perm _).mem_iff.1 hb)
  exact (List.inj_on_of_nodup_map hn ha' hb') hab

/-- **Violation.**  The declarations are not part of the key and changing them does not clear the cache
(`set_input_types`, `set_output_types`), so a method that reads them, such as the `prune` family, gives its
old answer after the outputs have been redeclared. -/
theorem C50_stale (impl : Prog R T → Call F A → Comp F A V) (p : Prog R T) (t : T) (c : Call F A) (v w : V)
    (hv : impl p c = .ret v) (hw : impl { p with outputs := t } c = .ret w) (hne : v ≠ w) :
    ∃ s, steps impl 5 ⟨p, []⟩ [.call c, .setOutputs t, .call c] = some (s, [some v, none, some v]) ∧
      s.prog = { p with outputs := t } ∧ ¬ Plain (impl s.prog) (impl s.prog c) v := by
  refine ⟨⟨{ p with outputs := t }, [(key c, v)]⟩, ?_, rfl, ?_⟩
  · simp [steps, step, run, hv, Dict.get, Dict.set]
  · simp only [hw]
    intro h
    cases h
    exact hne rfl

/-! `FrozenBag` -/

theorem counter_get {α : Type} [DecidableEq α] (l : List α) : ∀ (d : Dict α Nat) (x : α),
    ((counter l d).get x).getD 0 = (d.get x).getD 0 + l.count x := by
  induction l with
  | nil => intro d x; simp [counter]
  | cons a l ih =>
    intro d x
    simp only [counter, ih, Dict.get_set, List.count_cons]
    by_cases h : a = x
    · subst h; simp; omega
    · simp [h]

theorem counter_wf {α : Type} [DecidableEq α] (l : List α) : ∀ (d : Dict α Nat), d.WF → (∀ x n, d.get x = some n → 0 < n) →
    (counter l d).WF ∧ ∀ x n, (counter l d).get x = some n → 0 < n := by
  induction l with
  | nil => intro d h1 h2; exact ⟨h1, h2⟩
  | cons a l ih =>
    intro d h1 h2
    refine ih _ (Dict.WF.set h1 _ _) fun x n h => ?_
    rw [Dict.get_set] at h
    split at h
    · simp at h; omega
    · exact h2 x n h

/-- Two bags are equal iff the element lists are permutations of each other. -/
theorem C50_frozen_bag {α : Type} [DecidableEq α] (l m : List α) : frozenBag l = frozenBag m ↔ l.Perm m := by
  have key : ∀ (l : List α) (x : α) (n : Nat), (x, n) ∈ frozenBag l ↔ 0 < n ∧ l.count x = n := by
    intro l x n
    obtain ⟨h1, h2⟩ := counter_wf l [] (by simp [Dict.WF]) (by simp)
    have h3 := counter_get l [] x
    simp only [frozenBag, Set.mem_setOf_eq]
    rw [Dict.mem_iff_get h1]
    constructor
    · intro h
      rw [h] at h3
      exact ⟨h2 x n h, by simp at h3; exact h3.symm⟩
    · rintro ⟨hp, hc⟩
      rw [hc] at h3
      cases hg : (counter l []).get x with
      | none => rw [hg] at h3; simp at h3; omega
      | some k => rw [hg] at h3; simp at h3; rw [h3]
  rw [List.perm_iff_count]
  constructor
  · intro h x
    by_cases h0 : l.count x = 0
    · by_contra hne
      have : (x, m.count x) ∈ frozenBag l := by rw [h, key]; exact ⟨by omega, rfl⟩
      rw [key] at this; omega
    · have : (x, l.count x) ∈ frozenBag m := by rw [← h, key]; exact ⟨by omega, rfl⟩
      rw [key] at this; exact this.2.symm
  · intro h
    ext ⟨x, n⟩
    rw [key, key, h]

section Examples
/-- two methods: number 0 counts the rules, number 1 calls number 0 twice; number 2 reads the outputs -/
private def demo (p : Prog Nat Nat) (c : Call Nat Nat) : Comp Nat Nat Nat :=
  match c.func with
  | 0 => .ret p.rules.length
  | 1 => .call ⟨0, [], []⟩ fun a => .call ⟨0, [], []⟩ fun b => .ret (a + b)
  | _ => .ret p.outputs
example : KwOrder demo := by intro p f a k k' _; rfl
-- the count is computed again after a rule was added, and reused in between
example : (steps demo 9 ⟨⟨[7, 8], 0, 0⟩, []⟩ [.call ⟨1, [], []⟩, .add 9, .call ⟨1, [], []⟩, .pop 0, .call ⟨0, [], []⟩]).map (·.2) =
    some [some 4, none, some 6, none, some 2] := by decide
example : (steps demo 9 ⟨⟨[7, 8], 0, 0⟩, []⟩ [.call ⟨1, [], []⟩]).map (·.1.cache) =
    some [(⟨0, [], []⟩, 2), (⟨1, [], []⟩, 4)] := by decide
example : ∀ o ∈ ([.call ⟨1, [], []⟩, .add 9] : List (Op Nat Nat Nat Nat)), ¬ IsDecl o := by simp [IsDecl]
-- the hypotheses of `C50_stale`
example : ∃ v w, demo ⟨[], 0, 1⟩ ⟨2, [], []⟩ = .ret v ∧ demo ⟨[], 0, 5⟩ ⟨2, [], []⟩ = .ret w ∧ v ≠ w := ⟨1, 5, rfl, rfl, by decide⟩
example : key (⟨0, [], [("b", 1), ("a", 2)]⟩ : Call Nat Nat) = key ⟨0, [], [("a", 2), ("b", 1)]⟩ := by decide
example : frozenBag [1, 2, 1] = frozenBag [2, 1, 1] ∧ frozenBag [1, 2, 1] ≠ frozenBag [2, 1, 2] := by
  rw [Ne, C50_frozen_bag, C50_frozen_bag]; decide
end Examples

end Memo
end Verif
