/-
Properties C57 and C58: what the magic program derives, and what `$useful` means.
-/
import Verif.Magic
import Verif.Horn
import Verif.PruneThm
import Verif.UnfoldThm

set_option linter.unusedSectionVars false
set_option linter.unusedSimpArgs false

namespace Verif
open Tm Heap
open Sem Horn
open Solver (noHeap)

namespace Magic
open Linearize (Sigs isBuiltin)
open Unfold (Prog isInput)
variable {W : Type}

/-! ### Specification -/

/-- the term is a builtin, or some input declaration unifies with it -/
def Exo (sig : Sigs) (inputs : List Tm) (t : Tm) : Prop := isBuiltin sig t = true ∨ ∃ i ∈ inputs, ∃ θ : Nat → Tm, i.sub θ = t.sub θ

/-- heads and subgoals have functors; the rules define no instance of a subgoal that counts as defined elsewhere -/
structure Setup (sig : Sigs) (inputs : List Tm) (rules : List (WRule W)) : Prop where
  named : ∀ r ∈ rules, NamedRule r
  endo : ∀ r ∈ rules, ∀ t, Lit.sub t ∈ r.body → Exo sig inputs t → ∀ s ∈ rules, ∀ θ φ, gsub θ t ≠ gsub φ s.head

/-- the item `m(x)` -/
def wrap (m : Const) (x : GTm) : GTm := ⟨magicT m x.1, by
  have h := x.2
  unfold Ground at *
  simp [magicT, vars, varsL, h]⟩

/-- `x` can be asked for when the outputs are computed top-down -/
inductive Asked (ok : W → Prop) (rules outputs : List (WRule W)) (D : GTm → Prop) : GTm → Prop
  | out {o : WRule W} (ho : o ∈ outputs) (θ : Nat → GTm) (h : Fires ok D o.body θ) : Asked ok rules outputs D (gsub θ o.head)
  | down {r : WRule W} (hr : r ∈ rules) (θ : Nat → GTm) (h : Asked ok rules outputs D (gsub θ r.head)) {t : Tm} (ht : Lit.sub t ∈ r.body) :
      Asked ok rules outputs D (gsub θ t)

/-! ### `reorder` permutes -/

theorem reorderN_perm {e : Env W} : ∀ {n : Nat} {ys o : List (Lit W)} {b : Finset Nat}, ys.length = n → reorderN e n ys b = some o → o.Perm ys
  | 0, ys, o, b, hl, h => by
    rw [List.length_eq_zero_iff] at hl
    simp only [reorderN, Option.some.injEq] at h
    rw [hl, ← h]
  | n + 1, ys, o, b, hl, h => by
    rw [reorderN] at h
    split at h
    · next i _ =>
      split at h
      · next a ha =>
        obtain ⟨o', h', rfl⟩ := Option.map_eq_some_iff.1 h
        obtain ⟨hi, rfl⟩ := List.getElem?_eq_some_iff.1 ha
        have := reorderN_perm (by rw [List.length_eraseIdx_of_lt hi]; omega) h'
        exact (this.cons _).trans (List.getElem_cons_eraseIdx_perm hi)
      · simp at h
    · simp at h

theorem reorder_perm {e : Env W} {ys o : List (Lit W)} {b : Finset Nat} (h : reorder e ys b = some o) : o.Perm ys := reorderN_perm rfl h

/-! ### The rules of the result -/

theorem isInput_iff {f : Nat} {q : Tm} : ∀ {ts : List Tm} {b : Bool}, isInput f q noHeap ts = some b → (b = true ↔ ∃ i ∈ ts, ∃ θ : Nat → Tm, i.sub θ = q.sub θ)
  | [], b, e => by simp [isInput] at e; simp [← e]
  | t :: ts, b, e => by
    rw [isInput] at e
    cases hu : unifiesF f t q noHeap with
    | none => simp [hu] at e
    | some c =>
      have := DisjointEst.empty_unifies hu
      cases c with
      | true =>
        simp only [hu, Option.some.injEq] at e
        subst e
        simp only [true_iff, List.mem_cons, exists_eq_or_imp]
        exact .inl (this.1 rfl)
      | false =>
        simp only [hu] at e
        rw [isInput_iff e]
        simp only [List.mem_cons, exists_eq_or_imp]
        constructor
        · exact .inr
        · rintro (h | h)
          · exact absurd (this.2 h) (by simp)
          · exact h

theorem exo_iff {e : Env W} {t : Tm} {b : Bool} (h : exo e (.sub t) = some b) : b = true ↔ Exo e.sig e.inputs t := by
  simp only [exo] at h
  unfold Exo
  split at h
  · next hb => simp only [Option.some.injEq] at h; simp [← h, hb]
  · next hb => rw [isInput_iff h]; simp [hb]

theorem mem_outRules {e : Env W} {m : Const} : ∀ {os q : List (WRule W)}, outRules e m os = some q → ∀ r, r ∈ q ↔
    ∃ o ∈ os, ∃ b, reorder e o.body ∅ = some b ∧ r = ⟨magicT m o.head, b⟩
  | [], q, h, r => by simp [outRules] at h; simp [h]
  | o :: os, q, h, r => by
    rw [outRules] at h
    split at h
    · next b q' h1 h2 =>
      simp only [Option.some.injEq] at h
      subst h
      rw [List.mem_cons, mem_outRules h2]
      simp only [List.mem_cons, exists_eq_or_imp, h1, Option.some.injEq, exists_eq_left']
    · simp at h

theorem mem_demands {e : Env W} {m : Const} {gH : Tm} : ∀ {l pre : List (Lit W)} {q : List (WRule W)}, demands e m gH pre l = some q → ∀ r, r ∈ q ↔
    ∃ l1 t l2, l = l1 ++ .sub t :: l2 ∧ ¬ Exo e.sig e.inputs t ∧ r = ⟨magicT m t, .sub gH :: (pre ++ l1)⟩
  | [], pre, q, h, r => by simp [demands] at h; simp [h]
  | a :: l, pre, q, h, r => by
    rw [demands] at h
    split at h
    · next b q' h1 h2 =>
      simp only [Option.some.injEq] at h
      have ih := mem_demands h2 r
      have key : (∃ l1 t l2, a :: l = l1 ++ .sub t :: l2 ∧ ¬ Exo e.sig e.inputs t ∧ r = ⟨magicT m t, .sub gH :: (pre ++ l1)⟩) ↔
          (∃ t, a = .sub t ∧ ¬ Exo e.sig e.inputs t ∧ r = ⟨magicT m t, .sub gH :: pre⟩) ∨ r ∈ q' := by
        rw [ih]
        constructor
        · rintro ⟨l1, t, l2, h, hx, rfl⟩
          cases l1 with
          | nil =>
            simp only [List.nil_append, List.cons.injEq] at h
            exact .inl ⟨t, h.1, hx, by simp⟩
          | cons a' l1 =>
            simp only [List.cons_append, List.cons.injEq] at h
            obtain ⟨rfl, rfl⟩ := h
            exact .inr ⟨l1, t, l2, rfl, hx, by simp⟩
        · rintro (⟨t, rfl, hx, rfl⟩ | ⟨l1, t, l2, rfl, hx, rfl⟩)
          · exact ⟨[], t, l, rfl, hx, by simp⟩
          · exact ⟨a :: l1, t, l2, rfl, hx, by simp⟩
      rw [key, ← h]
      match a, b, h1 with
      | .val w, true, _ => simp
      | .val w, false, _ => simp
      | .sub t, true, h1 =>
        have := (exo_iff h1).1 rfl
        simp [this]
      | .sub t, false, h1 =>
        have : ¬ Exo e.sig e.inputs t := fun h => by simpa using (exo_iff h1).2 h
        simp [this]
    · simp at h

theorem mem_ruleRules {e : Env W} {m : Const} : ∀ {rs q : List (WRule W)}, ruleRules e m rs = some q → ∀ s, s ∈ q ↔
    ∃ r ∈ rs, ∃ o, reorder e r.body (vars r.head) = some o ∧ (s = ⟨r.head, .sub (magicT m r.head) :: o⟩ ∨
      ∃ l1 t l2, o = l1 ++ .sub t :: l2 ∧ ¬ Exo e.sig e.inputs t ∧ s = ⟨magicT m t, .sub (magicT m r.head) :: l1⟩)
  | [], q, h, s => by simp [ruleRules] at h; simp [h]
  | r :: rs, q, h, s => by
    rw [ruleRules] at h
    split at h
    · simp at h
    · next o ho =>
      split at h
      · next ds q' h1 h2 =>
        simp only [Option.some.injEq] at h
        subst h
        rw [List.cons_append, List.mem_cons, List.mem_append, mem_demands h1, mem_ruleRules h2]
        simp only [List.mem_cons, exists_eq_or_imp, ho, Option.some.injEq, exists_eq_left', List.nil_append, or_assoc]
      · simp at h

theorem reorder_ruleRules {e : Env W} {m : Const} : ∀ {rs q : List (WRule W)}, ruleRules e m rs = some q → ∀ r ∈ rs, ∃ o, reorder e r.body (vars r.head) = some o
  | r :: rs, q, h, r', hr => by
    rw [ruleRules] at h
    split at h
    · simp at h
    · next o ho =>
      split at h
      · next ds q' h1 h2 =>
        rcases List.mem_cons.1 hr with rfl | hr
        · exact ⟨o, ho⟩
        · exact reorder_ruleRules h2 r' hr
      · simp at h

theorem reorder_outRules {e : Env W} {m : Const} : ∀ {rs q : List (WRule W)}, outRules e m rs = some q → ∀ r ∈ rs, ∃ o, reorder e r.body ∅ = some o
  | r :: rs, q, h, r', hr => by
    rw [outRules] at h
    split at h
    · next b q' h1 h2 =>
      rcases List.mem_cons.1 hr with rfl | hr
      · exact ⟨b, h1⟩
      · exact reorder_outRules h2 r' hr
    · simp at h

theorem gsub_magicT (m : Const) (θ : Nat → GTm) (t : Tm) : gsub θ (magicT m t) = wrap m (gsub θ t) := Subtype.ext (by simp [gsub, wrap, magicT])

theorem wrap_isFn (m : Const) (x : GTm) : IsFn m (wrap m x) := by simp [IsFn, wrap, magicT, hfn]

theorem wrap_inj {m : Const} {x y : GTm} (h : wrap m x = wrap m y) : x = y := by
  have := congrArg Subtype.val h
  simp only [wrap, magicT, Tm.app.injEq, List.cons.injEq, true_and, and_true] at this
  exact Subtype.ext this

section
variable {e : Env W} {rules outputs q : List (WRule W)} {c : Nat} {m : Const} {ok : W → Prop} {d : GTm → Prop}

/-- what a rule of the result is -/
inductive MRule (e : Env W) (rules outputs : List (WRule W)) (m : Const) : WRule W → Prop
  | out {o : WRule W} (ho : o ∈ outputs) {b : List (Lit W)} (hb : b.Perm o.body) : MRule e rules outputs m ⟨magicT m o.head, b⟩
  | ans {r : WRule W} (hr : r ∈ rules) {o : List (Lit W)} (ho : o.Perm r.body) : MRule e rules outputs m ⟨r.head, .sub (magicT m r.head) :: o⟩
  | dem {r : WRule W} (hr : r ∈ rules) {l1 l2 : List (Lit W)} {t : Tm} (ho : (l1 ++ .sub t :: l2).Perm r.body) :
      MRule e rules outputs m ⟨magicT m t, .sub (magicT m r.head) :: l1⟩

theorem magic_inv (h : magic e rules outputs c = some (q, m)) : m ∉ Hook.syms ⟨rules, e.inputs⟩ ∧
    ∃ a b, outRules e m outputs = some a ∧ ruleRules e m rules = some b ∧ q = a ++ b := by
  unfold magic at h
  split at h
  · simp at h
  · next hs =>
    split at h
    · next a b h1 h2 =>
      simp only [Option.some.injEq, Prod.mk.injEq] at h
      obtain ⟨rfl, rfl⟩ := h
      exact ⟨hs, a, b, h1, h2, rfl⟩
    · simp at h

theorem magic_rules (h : magic e rules outputs c = some (q, m)) : ∀ r ∈ q, MRule e rules outputs m r := by
  obtain ⟨hs, a, b, h1, h2, rfl⟩ := magic_inv h
  intro r hr
  rcases List.mem_append.1 hr with hr | hr
  · obtain ⟨o, ho, b, hb, rfl⟩ := (mem_outRules h1 r).1 hr
    exact .out ho (reorder_perm hb)
  · obtain ⟨r', hr', o, ho, rfl | ⟨l1, t, l2, rfl, hx, rfl⟩⟩ := (mem_ruleRules h2 r).1 hr
    · exact .ans hr' (reorder_perm ho)
    · exact .dem hr' (reorder_perm ho)

theorem magic_clean (h : magic e rules outputs c = some (q, m)) (hn : ∀ r ∈ rules, NamedRule r) : ∀ r ∈ rules, Clean (IsFn m) r :=
  fun r hr => by
    have hs := (magic_inv h).1
    have h' : ∀ c, c ∈ (hfn r.head).toList ++ r.body.filterMap Hook.litFn → c ≠ m := fun c hc e => hs (List.mem_flatMap.2 ⟨r, hr, e ▸ hc⟩)
    refine ⟨avoids_of_ne (hn r hr).head fun e => h' m (by simp [e]) rfl, fun t ht => avoids_of_ne ((hn r hr).body t ht) fun e => h' m ?_ rfl⟩
    exact List.mem_append_right _ (List.mem_filterMap.2 ⟨_, ht, e⟩)

/-! ### Property C57: magic templates -/

/-- **Sound**: the magic program derives nothing new. -/
theorem C57_sound (h : magic e rules outputs c = some (q, m)) (hn : ∀ r ∈ rules, NamedRule r) {x : GTm} (hx : ¬ IsFn m x) (hD : Der ok q d x) :
    Der ok rules d x := by
  induction hD with
  | data h => exact .data h
  | @rule r hr θ hw _ ih =>
    cases magic_rules h r hr with
    | out ho hb => exact absurd (by rw [gsub_magicT]; exact wrap_isFn m _) hx
    | @dem r' hr' l1 l2 t ho => exact absurd (by rw [gsub_magicT]; exact wrap_isFn m _) hx
    | @ans r' hr' o ho =>
      refine Der.rule hr' θ (fun w hm => hw w (List.mem_cons_of_mem _ (ho.mem_iff.2 hm))) fun t ht => ih t (List.mem_cons_of_mem _ (ho.mem_iff.2 ht)) ?_
      exact (magic_clean h hn r' hr').body t ht θ

/-- **Complete for what is demanded**: every derivable item that is demanded is derived by the magic program. -/
theorem C57_complete (h : magic e rules outputs c = some (q, m)) (S : Setup e.sig e.inputs rules) {x : GTm} (hD : Der ok rules d x)
    (hm : Der ok q d (wrap m x)) : Der ok q d x := by
  obtain ⟨hs, a, b, h1, h2, hq⟩ := magic_inv h
  induction hD with
  | data h => exact .data h
  | @rule r hr θ hw hb ih =>
    obtain ⟨o, ho⟩ := reorder_ruleRules h2 r hr
    have hp := reorder_perm ho
    have key : ∀ l2 l1, o = l1 ++ l2 → Fires ok (Der ok q d) l1 θ → Fires ok (Der ok q d) o θ := by
      intro l2
      induction l2 with
      | nil => intro l1 e hf; rw [List.append_nil] at e; rwa [e]
      | cons a l2 ih2 =>
        intro l1 eq hf
        refine ih2 (l1 ++ [a]) (by rw [eq]; simp) (hf.append ⟨fun w hm => ?_, fun t ht => ?_⟩)
        · rw [List.mem_singleton] at hm
          exact hw w (hp.mem_iff.1 (by rw [eq, hm]; simp))
        · rw [List.mem_singleton] at ht
          subst ht
          have htb : Lit.sub t ∈ r.body := hp.mem_iff.1 (by rw [eq]; simp)
          by_cases hx : Exo e.sig e.inputs t
          · have := hb t htb
            generalize hy : gsub θ t = y at this
            cases this with
            | data hd => exact .data hd
            | rule hr' φ _ _ => exact absurd hy (S.endo r hr t htb hx _ hr' θ φ)
          · refine ih t htb ?_
            rw [← gsub_magicT]
            refine Der.fire (r := ⟨magicT m t, .sub (magicT m r.head) :: l1⟩) ?_ ⟨fun w hw => ?_, fun s hs => ?_⟩
            · rw [hq]
              exact List.mem_append_right _ ((mem_ruleRules h2 _).2 ⟨r, hr, o, ho, .inr ⟨l1, t, l2, eq, hx, rfl⟩⟩)
            · exact hf.wts w (by simpa using hw)
            · rcases List.mem_cons.1 hs with e | hs
              · cases e; rw [gsub_magicT]; exact hm
              · exact hf.subs s hs
    have hf := key o [] rfl ⟨by simp, by simp⟩
    refine Der.fire (r := ⟨r.head, .sub (magicT m r.head) :: o⟩) ?_ ⟨fun w hw => ?_, fun s hs => ?_⟩
    · rw [hq]
      exact List.mem_append_right _ ((mem_ruleRules h2 _).2 ⟨r, hr, o, ho, .inl rfl⟩)
    · exact hf.wts w (by simpa using hw)
    · rcases List.mem_cons.1 hs with e | hs
      · cases e; rw [gsub_magicT]; exact hm
      · exact hf.subs s hs

/-- the outputs whose conditions hold in the data are demanded -/
theorem out_demanded (h : magic e rules outputs c = some (q, m)) {o : WRule W} (ho : o ∈ outputs) {θ : Nat → GTm} (hf : Fires ok d o.body θ) :
    Der ok q d (wrap m (gsub θ o.head)) := by
  obtain ⟨hs, a, b, h1, h2, rfl⟩ := magic_inv h
  obtain ⟨b', hb⟩ := reorder_outRules h1 o ho
  rw [← gsub_magicT]
  refine Der.fire (r := ⟨magicT m o.head, b'⟩) (List.mem_append_left _ ((mem_outRules h1 _).2 ⟨o, ho, b', hb, rfl⟩)) ?_
  exact (hf.mono fun x => .data).sub fun l hl => (reorder_perm hb).mem_iff.1 hl

/-- **Outputs**: the instances of a declared output whose conditions hold in the data are derived by the magic program iff they
are derived by the original one. -/
theorem C57_outputs (h : magic e rules outputs c = some (q, m)) (S : Setup e.sig e.inputs rules) {o : WRule W} (ho : o ∈ outputs)
    (hm : ¬ ∃ φ, IsFn m (gsub φ o.head)) {θ : Nat → GTm} (hf : Fires ok d o.body θ) :
    Der ok q d (gsub θ o.head) ↔ Der ok rules d (gsub θ o.head) :=
  ⟨fun hD => C57_sound h S.named (fun hx => hm ⟨θ, hx⟩) hD, fun hD => C57_complete h S hD (out_demanded h ho hf)⟩

/-- **Goal-directed**: only demanded items are derived, and only items that a top-down computation of the outputs can ask for
are demanded. -/
theorem C57_demand (h : magic e rules outputs c = some (q, m)) (hn : ∀ r ∈ rules, NamedRule r) (hd : ∀ x, IsFn m x → ¬ d x) {x : GTm}
    (hD : Der ok q d x) : (¬ IsFn m x → d x ∨ Der ok q d (wrap m x)) ∧
      ∀ y, x = wrap m y → Asked ok rules outputs (Der ok q d) y := by
  induction hD with
  | data h => exact ⟨fun _ => .inl h, fun y e => absurd h (hd _ (e ▸ wrap_isFn m y))⟩
  | @rule r hr θ hw hb ih =>
    cases magic_rules h r hr with
    | @out o ho b hbo =>
      rw [gsub_magicT]
      refine ⟨fun hx => absurd (wrap_isFn m _) hx, fun y e => wrap_inj e ▸ .out ho θ ?_⟩
      exact ⟨fun w hm => hw w (hbo.mem_iff.2 hm), fun t ht => hb t (hbo.mem_iff.2 ht)⟩
    | @dem r' hr' l1 l2 t ho =>
      rw [gsub_magicT]
      refine ⟨fun hx => absurd (wrap_isFn m _) hx, fun y e => wrap_inj e ▸ ?_⟩
      refine .down hr' θ ((ih (magicT m r'.head) (by simp)).2 _ (gsub_magicT m θ r'.head)) (ho.mem_iff.1 (by simp))
    | @ans r' hr' o ho =>
      refine ⟨fun _ => .inr ?_, fun y e => ?_⟩
      · have := hb (magicT m r'.head) (by simp)
        rwa [gsub_magicT] at this
      · exact absurd (e ▸ wrap_isFn m y) ((magic_clean h hn r' hr').head θ)

end

/-! #### With pruning -/

section
variable {V : Type} {sig : Sigs} {fv cv : Nat → Nat} {f k : Nat}
open Prune

theorem bodyTerms_map (g : W → V) : ∀ b : List (Lit W), bodyTerms sig (b.map (mapLit g)) = bodyTerms sig b
  | [] => rfl
  | .val w :: b => by simp only [List.map_cons, mapLit, bodyTerms]; exact bodyTerms_map g b
  | .sub t :: b => by simp only [List.map_cons, mapLit, bodyTerms]; rw [bodyTerms_map g b]

theorem terms_map (g : W → V) (rules : List (WRule W)) (inputs : List Tm) : terms sig (rules.map (mapRule g)) inputs = terms sig rules inputs := by
  unfold terms
  rw [List.flatMap_map]
  congr 2
  funext r
  simp only [mapRule, bodyTerms_map]

theorem opts_map (g : W → V) (S : TSet) (l : Lit W) : opts sig fv f S (mapLit g l) = opts sig fv f S l := by cases l <;> rfl

theorem combos_map (g : W → V) (S : TSet) : ∀ b : List (Lit W), combos sig fv f S (b.map (mapLit g)) = combos sig fv f S b
  | [] => rfl
  | l :: b => by simp only [List.map_cons, combos, opts_map, combos_map g S b]

theorem allSome_map {α β γ : Type} (h : β → Option γ) (g : α → β) : ∀ l : List α, allSome h (l.map g) = allSome (fun a => h (g a)) l
  | [] => rfl
  | a :: l => by simp only [List.map_cons, Prune.allSome, allSome_map h g l]

theorem active_map (g : W → V) (S : TSet) (T : Finset Nat) (r : WRule W) : active sig fv f S T (mapRule g r) = active sig fv f S T r := by
  unfold active
  have : (Lit.sub (mapRule g r).head :: (mapRule g r).body : List (Lit V)) = (Lit.sub r.head :: r.body).map (mapLit g) := rfl
  rw [this, allSome_map]
  congr 2
  funext l
  simp only [good, opts_map]

theorem zip_map_filter (g : WRule W → WRule V) : ∀ (bs : List Bool) (rs : List (WRule W)),
    ((bs.zip (rs.map g)).filter Prod.fst).map Prod.snd = (((bs.zip rs).filter Prod.fst).map Prod.snd).map g
  | [], rs => rfl
  | b :: bs, [] => rfl
  | b :: bs, r :: rs => by
    simp only [List.map_cons, List.zip_cons_cons, List.filter_cons]
    cases b <;> simp [zip_map_filter g bs rs]

/-- pruning does not look at weights -/
theorem fast_map (g : W → V) {rules q : List (WRule W)} {inputs outputs : List Tm} (h : Fast sig fv cv f k rules inputs outputs q) :
    Fast sig fv cv f k (rules.map (mapRule g)) inputs outputs (q.map (mapRule g)) := by
  obtain ⟨S, es, ins, outs, C, T, bs, h1, h2, h3, rfl⟩ := h
  refine ⟨S, es, ins, outs, C, T, bs, ?_, h2, ?_, ?_⟩
  · rw [← h1]
    unfold coarsen
    rw [terms_map]
    have : ∀ S, allSome (ruleEdges sig fv f S) (rules.map (mapRule g)) = allSome (ruleEdges sig fv f S) rules := fun S => by
      rw [allSome_map]
      congr 1
      funext r
      simp only [ruleEdges, mapRule, combos_map]
    simp only [this]
  · rw [← h3, allSome_map]
    congr 1
    funext r
    exact active_map g S T r
  · exact (zip_map_filter _ bs rules).symm

open Classical in
/-- pruning keeps the derivable outputs -/
theorem fast_der (hfv : Function.Injective fv) (hsep : ∀ i j, fv i ≠ cv j) (hcv : Function.Injective cv) {rules q : List (WRule W)} {inputs outputs : List Tm}
    (hh : ∀ r ∈ rules, isBuiltin sig r.head = false) (hr : ∀ r ∈ rules, NamedRule r) (hn : ∀ t ∈ terms sig rules inputs, Order.Named t)
    (h : Fast sig fv cv f k rules inputs outputs q) {ok : W → Prop} {d : GTm → Prop}
    (hd : ∀ x, d x → isBuiltin sig x.1 = true ∨ ∃ t ∈ inputs, ∃ θ, gsub θ t = x) {x : GTm} (hx : IsOutput outputs x) :
    Der ok q d x ↔ Der ok rules d x := by
  let g : W → TV := fun w => if ok w then .t else .f
  let d' : GTm → TV := fun x => if d x then .t else .f
  have hg : (fun w => g w = .t) = ok := by funext w; by_cases hw : ok w <;> simp [g, hw]
  have hd' : (fun x => d' x = .t) = d := by funext x; by_cases hx : d x <;> simp [d', hx]
  have key : ∀ p : List (WRule W), Der ok p d x ↔ ∃ n, rounds (p.map (mapRule g)) d' n x = .t := fun p => by
    rw [← der_iff_rounds, der_map, hg, hd']
  rw [key, key]
  refine exists_congr fun n => ?_
  rw [C37_fast hfv hsep hcv (rules := rules.map (mapRule g)) ⟨fun r hr' => ?_, fun r hr' => ?_⟩ (by rwa [terms_map]) (fast_map g h) (fun y hy => ?_) n hx]
  · obtain ⟨s, hs, rfl⟩ := List.mem_map.1 hr'
    exact hh s hs
  · obtain ⟨s, hs, rfl⟩ := List.mem_map.1 hr'
    exact ⟨(hr s hs).head, fun t ht => (hr s hs).body t (sub_mem_map.1 ht)⟩
  · refine hd y ?_
    by_contra hc
    exact hy (by simp only [d', if_neg hc]; rfl)

end

theorem magicT_named {m : Const} {t : Tm} (h : Order.Named t) : Order.Named (magicT m t) := .app m [t] (by simpa using h)

theorem mem_bodyTerms {sig : Sigs} {t : Tm} : ∀ {b : List (Lit W)}, t ∈ Prune.bodyTerms sig b → Lit.sub t ∈ b
  | [], h => by simp [Prune.bodyTerms] at h
  | .val w :: b, h => by simp only [Prune.bodyTerms] at h; exact List.mem_cons_of_mem _ (mem_bodyTerms h)
  | .sub s :: b, h => by
    simp only [Prune.bodyTerms] at h
    split at h
    · exact List.mem_cons_of_mem _ (mem_bodyTerms h)
    · rcases List.mem_cons.1 h with rfl | h
      · simp
      · exact List.mem_cons_of_mem _ (mem_bodyTerms h)

/-- all the functors in the rule are constants -/
structure FullyNamed (r : WRule W) : Prop where
  rule : NamedRule r
  head : Order.Named r.head
  body : ∀ t, Lit.sub t ∈ r.body → Order.Named t

/-- **`magic_templates`**: from data for the inputs and builtins, the transformed and pruned program derives the same instances of
the declared outputs (those whose conditions hold in the data) as the original program. -/
theorem C57_magic {e : Env W} {fv cv : Nat → Nat} (hfv : Function.Injective fv) (hsep : ∀ i j, fv i ≠ cv j) (hcv : Function.Injective cv) {f k c : Nat}
    {rules outputs q : List (WRule W)} {m : Const} (h : Templates e fv cv f k rules outputs c q m) (S : Setup e.sig e.inputs rules)
    (hh : ∀ r ∈ rules, isBuiltin e.sig r.head = false) (hn : ∀ r ∈ rules ++ outputs, FullyNamed r) (hi : ∀ t ∈ e.inputs, Order.Named t)
    (hs : e.sig m 1 = false) (hm : ∀ o ∈ outputs, hfn o.head ≠ some m) {ok : W → Prop} {d : GTm → Prop}
    (hd : ∀ x, d x → isBuiltin e.sig x.1 = true ∨ ∃ t ∈ e.inputs, ∃ θ, gsub θ t = x) {o : WRule W} (ho : o ∈ outputs) {θ : Nat → GTm}
    (hf : Fires ok d o.body θ) : Der ok q d (gsub θ o.head) ↔ Der ok rules d (gsub θ o.head) := by
  obtain ⟨q', h1, h2⟩ := h
  have hr := magic_rules h1
  have no : ∀ o ∈ outputs, FullyNamed o := fun o ho => hn o (List.mem_append_right _ ho)
  have nr : ∀ r ∈ rules, FullyNamed r := fun r hr => hn r (List.mem_append_left _ hr)
  have a1 : ∀ r ∈ q', isBuiltin e.sig r.head = false := fun r hq => by
    cases hr r hq with
    | out _ _ => simpa [magicT, isBuiltin] using hs
    | @ans r' hr' _ _ => exact hh r' hr'
    | dem _ _ => simpa [magicT, isBuiltin] using hs
  have a2 : ∀ r ∈ q', FullyNamed r := fun r hq => by
    cases hr r hq with
    | @out o ho b hb =>
      exact ⟨⟨⟨_, _, rfl⟩, fun t ht => (no o ho).rule.body t (hb.mem_iff.1 ht)⟩, magicT_named (no o ho).head, fun t ht => (no o ho).body t (hb.mem_iff.1 ht)⟩
    | @ans r' hr' o ho =>
      refine ⟨⟨(nr r' hr').rule.head, fun t ht => ?_⟩, (nr r' hr').head, fun t ht => ?_⟩
      · rcases List.mem_cons.1 ht with e | ht
        · cases e; exact ⟨_, _, rfl⟩
        · exact (nr r' hr').rule.body t (ho.mem_iff.1 ht)
      · rcases List.mem_cons.1 ht with e | ht
        · cases e; exact magicT_named (nr r' hr').head
        · exact (nr r' hr').body t (ho.mem_iff.1 ht)
    | @dem r' hr' l1 l2 t ho =>
      refine ⟨⟨⟨_, _, rfl⟩, fun t ht => ?_⟩, magicT_named ((nr r' hr').body t (ho.mem_iff.1 (by simp))), fun t ht => ?_⟩
      · rcases List.mem_cons.1 ht with e | ht
        · cases e; exact ⟨_, _, rfl⟩
        · exact (nr r' hr').rule.body t (ho.mem_iff.1 (List.mem_append_left _ ht))
      · rcases List.mem_cons.1 ht with e | ht
        · cases e; exact magicT_named (nr r' hr').head
        · exact (nr r' hr').body t (ho.mem_iff.1 (List.mem_append_left _ ht))
  have a3 : ∀ t ∈ Prune.terms e.sig q' e.inputs, Order.Named t := fun t ht => by
    rcases List.mem_append.1 ht with ht | ht
    · exact hi t ht
    · obtain ⟨r, hq, ht⟩ := List.mem_flatMap.1 ht
      rcases List.mem_cons.1 ht with rfl | ht
      · exact (a2 r hq).head
      · exact (a2 r hq).body t (mem_bodyTerms ht)
  rw [fast_der hfv hsep hcv a1 (fun r hq => (a2 r hq).rule) a3 h2 hd ⟨o.head, List.mem_map_of_mem ho, θ, rfl⟩]
  refine C57_outputs h1 S ho (fun ⟨φ, hφ⟩ => hm o ho ?_) hf
  rw [← hfn_gsub (no o ho).rule.head φ]
  exact hφ

/-! ### Property C58: `$useful` -/

/-- derivation trees -/
inductive PT | mk (x : GTm) (subs : List PT)

def PT.root : PT → GTm
  | .mk x _ => x

/-- the subgoals of a body -/
def subgoals (b : List (Lit W)) : List Tm := b.filterMap fun l => match l with
  | .val _ => none
  | .sub t => some t

theorem mem_subgoals {b : List (Lit W)} {t : Tm} : t ∈ subgoals b ↔ Lit.sub t ∈ b := by
  unfold subgoals
  rw [List.mem_filterMap]
  constructor
  · rintro ⟨l, hl, e⟩
    cases l with
    | val w => simp at e
    | sub s => simp only [Option.some.injEq] at e; rwa [← e]
  · intro h; exact ⟨_, h, rfl⟩

/-- the tree is a derivation: its leaves are data, its inner nodes rule instances -/
inductive Valid (ok : W → Prop) (p : List (WRule W)) (d : GTm → Prop) : PT → Prop
  | leaf {x : GTm} : d x → Valid ok p d (.mk x [])
  | node {r : WRule W} (hr : r ∈ p) (θ : Nat → GTm) (hw : ∀ w, Lit.val w ∈ r.body → ok w) {subs : List PT}
      (he : subs.map PT.root = (subgoals r.body).map (gsub θ)) (hs : ∀ s ∈ subs, Valid ok p d s) : Valid ok p d (.mk (gsub θ r.head) subs)

/-- the item is at some node of the tree -/
inductive Occ (z : GTm) : PT → Prop
  | here (subs : List PT) : Occ z (.mk z subs)
  | sub (x : GTm) {subs : List PT} {s : PT} (hs : s ∈ subs) (h : Occ z s) : Occ z (.mk x subs)

section
variable {ok : W → Prop} {p : List (WRule W)} {d : GTm → Prop}

theorem trees {D : PT → Prop} {g : Tm → GTm} : ∀ {l : List Tm}, (∀ t ∈ l, ∃ T, D T ∧ T.root = g t) →
    ∃ Ts : List PT, Ts.map PT.root = l.map g ∧ ∀ s ∈ Ts, D s
  | [], _ => ⟨[], rfl, by simp⟩
  | t :: l, h => by
    obtain ⟨T, h1, h2⟩ := h t (by simp)
    obtain ⟨Ts, h3, h4⟩ := trees (l := l) fun t ht => h t (List.mem_cons_of_mem _ ht)
    refine ⟨T :: Ts, by simp [h2, h3], fun s hs => ?_⟩
    rcases List.mem_cons.1 hs with rfl | hs
    · exact h1
    · exact h4 s hs

theorem Valid.der {T : PT} (h : Valid ok p d T) : Der ok p d T.root := by
  induction h with
  | leaf h => exact .data h
  | @node r hr θ hw subs he hs ih =>
    refine .rule hr θ hw fun t ht => ?_
    have : gsub θ t ∈ subs.map PT.root := by rw [he]; exact List.mem_map_of_mem (mem_subgoals.2 ht)
    obtain ⟨s, hs, e⟩ := List.mem_map.1 this
    rw [← e]
    exact ih s hs

theorem der_tree {x : GTm} (h : Der ok p d x) : ∃ T, Valid ok p d T ∧ T.root = x := by
  induction h with
  | data h => exact ⟨_, .leaf h, rfl⟩
  | @rule r hr θ hw _ ih =>
    obtain ⟨Ts, h1, h2⟩ := trees (l := subgoals r.body) (g := gsub θ) fun t ht => ih t (mem_subgoals.1 ht)
    exact ⟨_, .node hr θ hw h1 h2, rfl⟩

/-- the item is derivable iff it has a derivation -/
theorem der_iff_tree {x : GTm} : Der ok p d x ↔ ∃ T, Valid ok p d T ∧ T.root = x :=
  ⟨der_tree, fun ⟨T, h, e⟩ => e ▸ h.der⟩

/-- another derivation of an item can take the place of its subtree -/
theorem graft {S : PT} (hS : Valid ok p d S) {T : PT} (hO : Occ S.root T) (hT : Valid ok p d T) :
    ∃ T', Valid ok p d T' ∧ T'.root = T.root ∧ ∀ z, Occ z S → Occ z T' := by
  induction hO with
  | here subs => exact ⟨S, hS, rfl, fun z h => h⟩
  | @sub x subs s hs h ih =>
    cases hT with
    | leaf _ => simp at hs
    | @node r hr θ hw _ he hv =>
      obtain ⟨s', h1, h2, h3⟩ := ih (hv s hs)
      obtain ⟨l1, l2, rfl⟩ := List.append_of_mem hs
      refine ⟨.mk (gsub θ r.head) (l1 ++ s' :: l2), .node hr θ hw (by rw [← he]; simp [h2]) (fun u hu => ?_), rfl, fun z hz => .sub _ (by simp) (h3 z hz)⟩
      simp only [List.mem_append, List.mem_cons] at hu
      rcases hu with hu | rfl | hu
      · exact hv u (by simp [hu])
      · exact h1
      · exact hv u (by simp [hu])

end

/-- the functor of the new items -/
abbrev uf : Const := .str "$useful"

section
variable {sig : Sigs} {rules outputs : List (WRule W)} {ok : W → Prop} {d : GTm → Prop}

/-- what a rule of the result is -/
inductive URule (sig : Sigs) (rules outputs : List (WRule W)) : WRule W → Prop
  | old {r : WRule W} (hr : r ∈ rules) : URule sig rules outputs r
  | out {o : WRule W} (ho : o ∈ outputs) : URule sig rules outputs ⟨magicT uf o.head, .sub o.head :: o.body⟩
  | use {r : WRule W} (hr : r ∈ rules) {t : Tm} (ht : Lit.sub t ∈ r.body) (hb : isBuiltin sig t = false) :
      URule sig rules outputs ⟨magicT uf t, .sub (magicT uf r.head) :: r.body⟩

theorem mem_useful {r : WRule W} : r ∈ useful sig rules outputs ↔ URule sig rules outputs r := by
  unfold useful
  rw [List.mem_append, List.mem_append, List.mem_map, List.mem_flatMap]
  constructor
  · rintro ((h | ⟨o, ho, rfl⟩) | ⟨r', hr', h⟩)
    · exact .old h
    · exact .out ho
    · obtain ⟨l, hl, e⟩ := List.mem_filterMap.1 h
      cases l with
      | val w => simp at e
      | sub t =>
        simp only at e
        split at e
        · simp at e
        · next hb =>
          simp only [Option.some.injEq] at e
          subst e
          exact .use hr' hl (by simpa using hb)
  · intro h
    cases h with
    | old hr => exact .inl (.inl hr)
    | out ho => exact .inl (.inr ⟨_, ho, rfl⟩)
    | @use r' hr' t ht hb => exact .inr ⟨r', hr', List.mem_filterMap.2 ⟨.sub t, ht, by simp [hb, usefulT, magicT]⟩⟩

/-- **Nothing else changes**: the other items are derivable iff they were. -/
theorem C58_conservative (hc : ∀ r ∈ rules, Clean (IsFn uf) r) {x : GTm} (hx : ¬ IsFn uf x) :
    Der ok (useful sig rules outputs) d x ↔ Der ok rules d x := by
  constructor
  · intro h
    induction h with
    | data h => exact .data h
    | @rule r hr θ hw _ ih =>
      cases mem_useful.1 hr with
      | old hr => exact .rule hr θ hw fun t ht => ih t ht ((hc _ hr).body t ht θ)
      | out _ => exact absurd (by rw [gsub_magicT]; exact wrap_isFn uf _) hx
      | use _ _ _ => exact absurd (by rw [gsub_magicT]; exact wrap_isFn uf _) hx
  · intro h
    clear hx
    induction h with
    | data h => exact .data h
    | rule hr θ hw _ ih => exact .rule (mem_useful.2 (.old hr)) θ hw ih

/-- **`$useful(z)` is derivable iff `z` occurs in a derivation of a declared output whose conditions are derivable.** -/
theorem C58_useful (hp : ∀ r ∈ rules, NamedRule r) (hh : ∀ r ∈ rules, isBuiltin sig r.head = false) (hc : ∀ r ∈ rules ++ outputs, Clean (IsFn uf) r)
    (hd : ∀ x, IsFn uf x → ¬ d x) {z : GTm} (hz : isBuiltin sig z.1 = false) :
    Der ok (useful sig rules outputs) d (wrap uf z) ↔
      ∃ o ∈ outputs, ∃ θ, Fires ok (Der ok rules d) o.body θ ∧ ∃ T, Valid ok rules d T ∧ T.root = gsub θ o.head ∧ Occ z T := by
  have cr : ∀ r ∈ rules, Clean (IsFn uf) r := fun r hr => hc r (List.mem_append_left _ hr)
  have co : ∀ o ∈ outputs, Clean (IsFn uf) o := fun o ho => hc o (List.mem_append_right _ ho)
  constructor
  · clear hz
    intro h
    generalize hy : wrap uf z = y at h
    induction h generalizing z with
    | data h => exact absurd h (hd _ (hy ▸ wrap_isFn uf z))
    | @rule r hr θ hw hb ih =>
      cases mem_useful.1 hr with
      | old hr => exact absurd (hy ▸ wrap_isFn uf z) ((cr _ hr).head θ)
      | @out o ho =>
        rw [gsub_magicT] at hy
        rw [wrap_inj hy]
        have hD : ∀ t, Lit.sub t ∈ Lit.sub o.head :: o.body → Avoids (IsFn uf) t → Der ok rules d (gsub θ t) := fun t ht ha =>
          (C58_conservative cr (ha θ)).1 (hb t ht)
        obtain ⟨T, h1, h2⟩ := der_tree (hD o.head (by simp) (co o ho).head)
        refine ⟨o, ho, θ, ⟨fun w hm => hw w (by simp [hm]), fun t ht => hD t (by simp [ht]) ((co o ho).body t ht)⟩, T, h1, h2, ?_⟩
        rw [← h2]
        cases T with
        | mk x subs => exact .here subs
      | @use r' hr' t ht hbt =>
        rw [gsub_magicT] at hy
        rw [wrap_inj hy]
        obtain ⟨o, ho, φ, hf, T, h1, h2, h3⟩ := ih (magicT uf r'.head) (by simp) (gsub_magicT uf θ r'.head).symm
        obtain ⟨Ts, e1, e2⟩ := trees (l := subgoals r'.body) (g := gsub θ) (D := Valid ok rules d) fun s hs =>
          der_tree ((C58_conservative cr ((cr r' hr').body s (mem_subgoals.1 hs) θ)).1 (hb s (by simp [mem_subgoals.1 hs])))
        have hv : Valid ok rules d (.mk (gsub θ r'.head) Ts) := .node hr' θ (fun w hm => hw w (by simp [hm])) e1 e2
        obtain ⟨T', h4, h5, h6⟩ := graft hv h3 h1
        refine ⟨o, ho, φ, hf, T', h4, h5.trans h2, h6 _ ?_⟩
        have : gsub θ t ∈ Ts.map PT.root := by rw [e1]; exact List.mem_map_of_mem (mem_subgoals.2 ht)
        obtain ⟨s, hs, e⟩ := List.mem_map.1 this
        refine .sub _ hs ?_
        rw [← e]
        cases s with
        | mk x subs => exact .here subs
  · rintro ⟨o, ho, θ, hf, T, hv, hT, hO⟩
    have up : ∀ x, Der ok rules d x → Der ok (useful sig rules outputs) d x := fun x h => by
      induction h with
      | data h => exact .data h
      | rule hr θ hw _ ih => exact .rule (mem_useful.2 (.old hr)) θ hw ih
    have hroot : Der ok (useful sig rules outputs) d (wrap uf T.root) := by
      rw [hT, ← gsub_magicT]
      refine Der.fire (mem_useful.2 (.out ho)) ⟨fun w hm => hf.wts w (by simpa using hm), fun t ht => ?_⟩
      rcases List.mem_cons.1 ht with e | ht
      · cases e; rw [← hT]; exact up _ hv.der
      · exact up _ (hf.subs t ht)
    clear hT hf
    induction hv with
    | leaf hx =>
      cases hO with
      | here _ => exact hroot
      | sub _ hs _ => simp at hs
    | @node r hr φ hw subs he hs ih =>
      cases hO with
      | here _ => exact hroot
      | @sub _ _ s hs' hO =>
        have hmem : s.root ∈ (subgoals r.body).map (gsub φ) := by rw [← he]; exact List.mem_map_of_mem hs'
        obtain ⟨t, ht, e⟩ := List.mem_map.1 hmem
        have ht := mem_subgoals.1 ht
        cases hbt : isBuiltin sig t with
        | true =>
          exfalso
          have hbs : isBuiltin sig s.root.1 = true := by rw [← e, Prune.isBuiltin_gsub ((hp r hr).body t ht), hbt]
          cases hs s hs' with
          | leaf _ =>
            cases hO with
            | here _ => rw [PT.root, hz] at hbs; simp at hbs
            | sub _ h _ => simp at h
          | node hr2 ψ _ _ _ =>
            rw [PT.root, Prune.isBuiltin_gsub (hp _ hr2).head, hh _ hr2] at hbs
            simp at hbs
        | false =>
          refine ih s hs' hO ?_
          rw [← e, ← gsub_magicT]
          refine Der.fire (mem_useful.2 (.use hr ht hbt)) ⟨fun w hm => hw w (by simpa using hm), fun u hu => ?_⟩
          rcases List.mem_cons.1 hu with e | hu
          · cases e; rw [gsub_magicT]; exact hroot
          · have : gsub φ u ∈ subs.map PT.root := by rw [he]; exact List.mem_map_of_mem (mem_subgoals.2 hu)
            obtain ⟨s', h1, h2⟩ := List.mem_map.1 this
            rw [← h2]
            exact up _ (hs s' h1).der

end

/-! ### When the magic program exists -/

section
variable {sig : Sigs} {inputs : List Tm} {leaf : Tm → Bool}

theorem isInput_total (q : Tm) : ∀ ts : List Tm, Evt (fun f => ∃ b, isInput f q noHeap ts = some b)
  | [] => ⟨0, fun f _ => ⟨false, rfl⟩⟩
  | t :: ts => by
    obtain ⟨N1, h1⟩ := DisjointEst.unifiesF_total t q
    obtain ⟨N2, h2⟩ := isInput_total q ts
    refine ⟨max N1 N2, fun f hf => ?_⟩
    obtain ⟨b, hb⟩ := h2 f (le_trans (le_max_right _ _) hf)
    have := h1 f (le_trans (le_max_left _ _) hf)
    rw [isInput]
    cases hu : unifiesF f t q noHeap with
    | none => exact absurd hu this
    | some c => cases c <;> simp [hb]

/-- for the body elements in the list, `is_exogenous` answers -/
def Answers (e : Env W) (b : List (Lit W)) : Prop := ∀ l ∈ b, ∃ a, exo e l = some a

theorem answers_evt : ∀ b : List (Lit W), Evt (fun f => Answers ⟨sig, f, inputs, leaf⟩ b)
  | [] => ⟨0, fun f _ l hl => by simp at hl⟩
  | l :: b => by
    obtain ⟨N1, h1⟩ := answers_evt b
    have : Evt (fun f => ∃ a, exo (W := W) ⟨sig, f, inputs, leaf⟩ l = some a) := by
      cases l with
      | val w => exact ⟨0, fun f _ => ⟨true, rfl⟩⟩
      | sub t =>
        simp only [exo]
        split
        · exact ⟨0, fun f _ => ⟨true, rfl⟩⟩
        · exact isInput_total t inputs
    obtain ⟨N2, h2⟩ := this
    refine ⟨max N1 N2, fun f hf l' hl' => ?_⟩
    rcases List.mem_cons.1 hl' with rfl | hl'
    · exact h2 f (le_trans (le_max_right _ _) hf)
    · exact h1 f (le_trans (le_max_left _ _) hf) l' hl'

theorem key_total {e : Env W} {l : Lit W} (h : ∃ a, exo e l = some a) (b : Finset Nat) : ∃ k, key e b l = some k := by
  obtain ⟨a, h⟩ := h
  have : ∃ s, stage e l = some s := by
    cases l with
    | val w => exact ⟨0, rfl⟩
    | sub t =>
      simp only [stage, h]
      split
      · exact ⟨_, rfl⟩
      · exact ⟨_, rfl⟩
  obtain ⟨s, hs⟩ := this
  simp only [key, hs]
  exact ⟨_, rfl⟩

theorem minPos_total {e : Env W} {bound : Finset Nat} : ∀ {ys : List (Lit W)}, Answers e ys → ∃ o, minPos e bound ys = some o ∧ (ys ≠ [] → ∃ k i, o = some (k, i) ∧ i < ys.length)
  | [], _ => ⟨none, rfl, by simp⟩
  | a :: ys, h => by
    obtain ⟨o, h1, h2⟩ := minPos_total (e := e) (bound := bound) (ys := ys) fun l hl => h l (List.mem_cons_of_mem _ hl)
    obtain ⟨k, hk⟩ := key_total (h a (by simp)) bound
    rw [minPos, hk, h1]
    cases o with
    | none => exact ⟨_, rfl, fun _ => ⟨_, _, rfl, by simp⟩⟩
    | some p =>
      obtain ⟨k', i⟩ := p
      have hne : ys ≠ [] := by rintro rfl; simp [minPos] at h1
      obtain ⟨k2, i2, e2, hi⟩ := h2 hne
      simp only [Option.some.injEq, Prod.mk.injEq] at e2
      refine ⟨_, rfl, fun _ => ?_⟩
      split
      · exact ⟨_, _, rfl, by rw [List.length_cons]; omega⟩
      · exact ⟨_, _, rfl, by simp⟩

theorem reorderN_total {e : Env W} : ∀ {n : Nat} {ys : List (Lit W)} (b : Finset Nat), ys.length = n → Answers e ys → ∃ o, reorderN e n ys b = some o
  | 0, ys, b, _, _ => ⟨[], rfl⟩
  | n + 1, ys, b, hl, h => by
    obtain ⟨o, h1, h2⟩ := minPos_total (bound := b) h
    obtain ⟨k, i, rfl, hi⟩ := h2 (by rintro rfl; simp at hl)
    obtain ⟨o', ho⟩ := reorderN_total (n := n) (ys := ys.eraseIdx i) (b ∪ litVars ys[i]) (by rw [List.length_eraseIdx_of_lt hi]; omega)
      fun l hl => h l (List.mem_of_mem_eraseIdx hl)
    refine ⟨ys[i] :: o', ?_⟩
    rw [reorderN, h1]
    simp only [List.getElem?_eq_getElem hi, ho, Option.map_some]

theorem demands_total {e : Env W} {m : Const} {gH : Tm} : ∀ {l pre : List (Lit W)}, Answers e l → ∃ q, demands e m gH pre l = some q
  | [], pre, _ => ⟨[], rfl⟩
  | a :: l, pre, h => by
    obtain ⟨b, hb⟩ := h a (by simp)
    obtain ⟨q, hq⟩ := demands_total (e := e) (m := m) (gH := gH) (l := l) (pre := pre ++ [a]) fun l hl => h l (List.mem_cons_of_mem _ hl)
    rw [demands, hb, hq]
    exact ⟨_, rfl⟩

theorem outRules_total {e : Env W} {m : Const} : ∀ {os : List (WRule W)}, (∀ o ∈ os, Answers e o.body) → ∃ q, outRules e m os = some q
  | [], _ => ⟨[], rfl⟩
  | o :: os, h => by
    obtain ⟨b, hb⟩ := reorderN_total ∅ rfl (h o (by simp))
    obtain ⟨q, hq⟩ := outRules_total (m := m) (os := os) fun o ho => h o (List.mem_cons_of_mem _ ho)
    rw [outRules, show reorder e o.body ∅ = some b from hb, hq]
    exact ⟨_, rfl⟩

theorem ruleRules_total {e : Env W} {m : Const} : ∀ {rs : List (WRule W)}, (∀ o ∈ rs, Answers e o.body) → ∃ q, ruleRules e m rs = some q
  | [], _ => ⟨[], rfl⟩
  | r :: rs, h => by
    obtain ⟨o, ho⟩ := reorderN_total (vars r.head) rfl (h r (by simp))
    have hp := reorder_perm (show reorder e r.body (vars r.head) = some o from ho)
    obtain ⟨ds, hds⟩ := demands_total (m := m) (gH := magicT m r.head) (pre := []) fun l hl => h r (by simp) l (hp.mem_iff.1 hl)
    obtain ⟨q, hq⟩ := ruleRules_total (m := m) (rs := rs) fun o ho => h o (List.mem_cons_of_mem _ ho)
    rw [ruleRules, show reorder e r.body (vars r.head) = some o from ho]
    simp only [hds, hq]
    exact ⟨_, rfl⟩

/-- **It returns**, with enough fuel, if the generated name is new and no head, input or output is a builtin. -/
theorem C57_returns [CSemi W] {fv cv : Nat → Nat} {k c : Nat} {rules outputs : List (WRule W)} (hc : magicName (c + 1) ∉ Hook.syms ⟨rules, inputs⟩)
    (hs : sig (magicName (c + 1)) 1 = false) (hh : ∀ r ∈ rules, isBuiltin sig r.head = false) (hi : ∀ t ∈ inputs, isBuiltin sig t = false)
    (ho : ∀ o ∈ outputs, isBuiltin sig o.head = false) :
    Evt fun f => Evt fun g => ∃ q, Templates ⟨sig, f, inputs, leaf⟩ fv cv g k rules outputs c q (magicName (c + 1)) := by
  obtain ⟨N, hN⟩ := answers_evt (sig := sig) (inputs := inputs) (leaf := leaf) ((rules ++ outputs).flatMap (·.body))
  refine ⟨N, fun f hf => ?_⟩
  have ha := hN f hf
  obtain ⟨a, h1⟩ := outRules_total (m := magicName (c + 1)) (os := outputs) (e := ⟨sig, f, inputs, leaf⟩) fun o ho l hl =>
    ha l (List.mem_flatMap.2 ⟨o, by simp [ho], hl⟩)
  obtain ⟨b, h2⟩ := ruleRules_total (m := magicName (c + 1)) (rs := rules) (e := ⟨sig, f, inputs, leaf⟩) fun o ho l hl =>
    ha l (List.mem_flatMap.2 ⟨o, by simp [ho], hl⟩)
  have h3 : magic ⟨sig, f, inputs, leaf⟩ rules outputs c = some (a ++ b, magicName (c + 1)) := by
    unfold magic
    rw [if_neg hc, h1, h2]
  refine (Prune.C37_fast_returns (fv := fv) (cv := cv) (k := k) (rules := a ++ b) (outputs := outputs.map (·.head)) (fun r hr => ?_) hi fun t ht => ?_).mono fun g hg => ?_
  · cases magic_rules h3 r hr with
    | out _ _ => simpa [magicT, isBuiltin] using hs
    | @ans r' hr' _ _ => exact hh r' hr'
    | dem _ _ => simpa [magicT, isBuiltin] using hs
  · obtain ⟨o, ho', rfl⟩ := List.mem_map.1 ht
    exact ho o ho'
  · obtain ⟨q, hq⟩ := hg
    exact ⟨q, _, h3, hq⟩

end

/-! ### Examples -/

section Examples
open Unfold (at')

abbrev n (i : Int) : Tm := .con (.int i)

/-- `goal(Y) += path(1,Y). path(X,Y) += edge(X,Y). path(X,Z) += path(X,Y) * edge(Y,Z) * (Y < 9). loop(X) += path(X,X).` -/
def demoP : List (WRule TV) := [⟨at' "goal" [.var 0], [.sub (at' "path" [n 1, .var 0])]⟩, ⟨at' "path" [.var 0, .var 1], [.sub (at' "edge" [.var 0, .var 1])]⟩,
  ⟨at' "path" [.var 0, .var 2], [.sub (at' "<" [.var 1, n 9]), .sub (at' "path" [.var 0, .var 1]), .sub (at' "edge" [.var 1, .var 2])]⟩,
  ⟨at' "loop" [.var 0], [.sub (at' "path" [.var 0, .var 0])]⟩]

/-- `outputs: goal(Y).` -/
def demoO : List (WRule TV) := [⟨at' "goal" [.var 0], []⟩]

/-- `inputs: edge(_,_).` -/
def demoI : List Tm := [at' "edge" [.var 10, .var 11]]

def demoS : Sigs := fun c k => decide (c = .str "<" ∧ k = 2)

def demoE : Env TV := ⟨demoS, 20, demoI, fun _ => false⟩

/-- `edge` comes first, then `path`, then the comparison -/
theorem demo_run : magic demoE demoP demoO 0 = some ([⟨at' "$magic1" [at' "goal" [.var 0]], []⟩,
    ⟨at' "goal" [.var 0], [.sub (at' "$magic1" [at' "goal" [.var 0]]), .sub (at' "path" [n 1, .var 0])]⟩,
    ⟨at' "$magic1" [at' "path" [n 1, .var 0]], [.sub (at' "$magic1" [at' "goal" [.var 0]])]⟩,
    ⟨at' "path" [.var 0, .var 1], [.sub (at' "$magic1" [at' "path" [.var 0, .var 1]]), .sub (at' "edge" [.var 0, .var 1])]⟩,
    ⟨at' "path" [.var 0, .var 2], [.sub (at' "$magic1" [at' "path" [.var 0, .var 2]]), .sub (at' "edge" [.var 1, .var 2]),
      .sub (at' "path" [.var 0, .var 1]), .sub (at' "<" [.var 1, n 9])]⟩,
    ⟨at' "$magic1" [at' "path" [.var 0, .var 1]], [.sub (at' "$magic1" [at' "path" [.var 0, .var 2]]), .sub (at' "edge" [.var 1, .var 2])]⟩,
    ⟨at' "loop" [.var 0], [.sub (at' "$magic1" [at' "loop" [.var 0]]), .sub (at' "path" [.var 0, .var 0])]⟩,
    ⟨at' "$magic1" [at' "path" [.var 0, .var 0]], [.sub (at' "$magic1" [at' "loop" [.var 0]])]⟩], .str "$magic1") := by
  decide +kernel

theorem demo_named : ∀ r ∈ demoP ++ demoO, FullyNamed r := by
  intro r hr
  simp only [demoP, demoO, List.cons_append, List.nil_append, List.mem_cons, List.not_mem_nil, or_false] at hr
  have hv : ∀ (f : String) (as : List Tm), (∀ a ∈ as, Order.Named a) → Order.Named (at' f as) := fun f as h => .app _ _ h
  rcases hr with rfl | rfl | rfl | rfl | rfl <;> refine ⟨⟨⟨_, _, rfl⟩, fun t ht => ?_⟩, hv _ _ ?_, fun t ht => ?_⟩ <;>
    first
    | (simp only [List.not_mem_nil] at ht; done)
    | (simp only [List.mem_cons, Lit.sub.injEq, List.not_mem_nil, or_false] at ht
       first
       | (rcases ht with rfl | rfl | rfl <;> first | exact ⟨_, _, rfl⟩ | (refine hv _ _ ?_; simp [Order.Named.var, Order.Named.con]))
       | (subst ht; first | exact ⟨_, _, rfl⟩ | (refine hv _ _ ?_; simp [Order.Named.var, Order.Named.con]))
       | exact ht.elim)
    | simp [Order.Named.var]

theorem demo_setup : Setup demoS demoI demoP where
  named r hr := (demo_named r (List.mem_append_left _ hr)).rule
  endo r hr t ht hx s hs θ φ e := by
    have h1 : hfn t = some (.str "edge") ∨ hfn t = some (.str "<") := by
      simp only [demoP, List.mem_cons, List.not_mem_nil, or_false] at hr
      rcases hr with rfl | rfl | rfl | rfl <;> simp only [List.mem_cons, Lit.sub.injEq, List.not_mem_nil, or_false] at ht <;>
        (first | (rcases ht with rfl | rfl | rfl) | subst ht)
      all_goals first
        | exact .inl rfl
        | exact .inr rfl
        | (rcases hx with hx | ⟨i, hi, ψ, e⟩
           · simp [isBuiltin, demoS] at hx
           · simp only [demoI, List.mem_singleton] at hi
             subst hi
             simp [at'] at e)
    have hn := (demo_named r (List.mem_append_left _ hr)).rule.body t ht
    have hm := (demo_named s (List.mem_append_left _ hs)).rule.head
    have h2 : hfn t = hfn s.head := by rw [← hfn_gsub hn θ, ← hfn_gsub hm φ, e]
    simp only [demoP, List.mem_cons, List.not_mem_nil, or_false] at hs
    rcases hs with rfl | rfl | rfl | rfl <;> rw [h2] at h1 <;> simp [hfn, at'] at h1

/-- the data: some edges, and the order of the numbers -/
def demoD (x : GTm) : Prop := x.1 = at' "edge" [n 1, n 2] ∨ x.1 = at' "edge" [n 2, n 3] ∨ ∃ i j : Int, i < j ∧ x.1 = at' "<" [n i, n j]

/-- the theorems apply to it -/
example : ∃ f g q m, Templates ⟨demoS, f, demoI, fun _ => false⟩ (fun i => 2 * i) (fun i => 2 * i + 1) g 20 demoP demoO 0 q m ∧
    ∀ θ, Der (· = TV.t) q demoD (gsub θ (at' "goal" [.var 0])) ↔ Der (· = TV.t) demoP demoD (gsub θ (at' "goal" [.var 0])) := by
  obtain ⟨f, hf⟩ := C57_returns (sig := demoS) (inputs := demoI) (leaf := fun _ => false) (fv := fun i => 2 * i) (cv := fun i => 2 * i + 1) (k := 20) (c := 0)
    (rules := demoP) (outputs := demoO) (by decide +kernel) (by decide +kernel) (by decide +kernel) (by decide +kernel) (by decide +kernel)
  obtain ⟨g, hg⟩ := hf f (le_refl _)
  obtain ⟨q, h⟩ := hg g (le_refl _)
  refine ⟨f, g, q, _, h, fun θ => C57_magic (fun a b (h : 2 * a = 2 * b) => by omega) (fun i j => by omega) (fun a b (h : 2 * a + 1 = 2 * b + 1) => by omega) h
    demo_setup (show ∀ r ∈ demoP, isBuiltin demoS r.head = false by decide +kernel) demo_named ?_ (show demoS (magicName 1) 1 = false by decide +kernel)
    (by decide +kernel) (fun x hx => ?_) (o := demoO[0]) (by simp) ⟨by simp [demoO], by simp [demoO]⟩⟩
  · intro t ht
    simp only [demoI, List.mem_singleton] at ht
    subst ht
    exact .app _ _ (by simp [Order.Named.var])
  · rcases hx with e | e | ⟨i, j, _, e⟩
    · exact .inr ⟨_, by simp [demoI]; rfl, fun v => if v = 10 then ⟨n 1, by simp [Ground]⟩ else ⟨n 2, by simp [Ground]⟩, Subtype.ext (by simp [gsub, e, at'])⟩
    · exact .inr ⟨_, by simp [demoI]; rfl, fun v => if v = 10 then ⟨n 2, by simp [Ground]⟩ else ⟨n 3, by simp [Ground]⟩, Subtype.ext (by simp [gsub, e, at'])⟩
    · left; rw [e]; simp [isBuiltin, at', demoS]

/-- ... and so do those about `$useful` -/
example (z : GTm) (hz : isBuiltin demoS z.1 = false) : Der (· = TV.t) (useful demoS demoP demoO) demoD (wrap uf z) ↔
    ∃ o ∈ demoO, ∃ θ, Fires (· = TV.t) (Der (· = TV.t) demoP demoD) o.body θ ∧ ∃ T, Valid (· = TV.t) demoP demoD T ∧ T.root = gsub θ o.head ∧ Occ z T := by
  refine C58_useful demo_setup.named (by decide +kernel) (fun r hr => ?_) (fun x hx hd => ?_) hz
  · have hn := (demo_named r hr).rule
    have h1 : hfn r.head ≠ some uf ∧ ∀ t, Lit.sub t ∈ r.body → hfn t ≠ some uf := by
      simp only [demoP, demoO, List.cons_append, List.nil_append, List.mem_cons, List.not_mem_nil, or_false] at hr
      rcases hr with rfl | rfl | rfl | rfl | rfl <;> refine ⟨by decide +kernel, fun t ht => ?_⟩ <;>
        simp only [List.mem_cons, Lit.sub.injEq, List.not_mem_nil, or_false] at ht
      · subst ht; decide +kernel
      · subst ht; decide +kernel
      · rcases ht with rfl | rfl | rfl <;> decide +kernel
      · subst ht; decide +kernel
    exact ⟨avoids_of_ne hn.head h1.1, fun t ht => avoids_of_ne (hn.body t ht) (h1.2 t ht)⟩
  · unfold IsFn at hx
    rcases hd with e | e | ⟨i, j, _, e⟩ <;> rw [e] at hx <;> simp [hfn, at'] at hx

end Examples

/-! ### Where the hypotheses are needed -/

section Violations
open Unfold (at')

def gt (t : Tm) (h : Ground t := by simp [Ground, vars, varsL, at']) : GTm := ⟨t, h⟩

/-- `goal += f(X). f(2).` with `inputs: f(1).` -/
def partP : List (WRule TV) := [⟨at' "goal" [], [.sub (at' "f" [.var 0])]⟩, ⟨at' "f" [n 2], []⟩]

/-- **An input declaration that only unifies with a subgoal stops the demand for its other instances**: `goal` is derivable, but
not by the magic program. -/
theorem C57_partly_input : ∃ q m, magic ⟨demoS, 20, [at' "f" [n 1]], fun _ => false⟩ partP [⟨at' "goal" [], []⟩] 0 = some (q, m) ∧
    Der (· = TV.t) partP (fun _ => False) (gt (at' "goal" [])) ∧ ¬ Der (· = TV.t) q (fun _ => False) (gt (at' "goal" [])) := by
  refine ⟨[⟨at' "$magic1" [at' "goal" []], []⟩, ⟨at' "goal" [], [.sub (at' "$magic1" [at' "goal" []]), .sub (at' "f" [.var 0])]⟩,
    ⟨at' "f" [n 2], [.sub (at' "$magic1" [at' "f" [n 2]])]⟩], .str "$magic1", by decide +kernel, ?_, fun h => ?_⟩
  · have h2 : Der (· = TV.t) partP (fun _ => False) (gt (at' "f" [n 2])) := Der.rule (r := partP[1]) (by simp) (fun _ => g0) (by simp [partP]) (by simp [partP])
    refine Der.rule (r := partP[0]) (by simp) (fun _ => gt (n 2)) (by simp [partP]) fun t ht => ?_
    simp only [partP, List.getElem_cons_zero, List.mem_singleton, Lit.sub.injEq] at ht
    subst ht
    exact h2
  · have key : ∀ x, Der (· = TV.t) [⟨at' "$magic1" [at' "goal" []], []⟩, ⟨at' "goal" [], [.sub (at' "$magic1" [at' "goal" []]), .sub (at' "f" [.var 0])]⟩,
        ⟨at' "f" [n 2], [.sub (at' "$magic1" [at' "f" [n 2]])]⟩] (fun _ => False) x → x.1 = at' "$magic1" [at' "goal" []] := by
      intro x hx
      induction hx with
      | data h => exact h.elim
      | @rule r hr θ hw hb ih =>
        simp only [List.mem_cons, List.not_mem_nil, or_false] at hr
        rcases hr with rfl | rfl | rfl
        · simp [gsub, at']
        · have := ih (at' "f" [.var 0]) (by simp)
          simp [gsub, at'] at this
        · have := ih (at' "$magic1" [at' "f" [n 2]]) (by simp)
          simp [gsub, at'] at this
    have := key _ h
    simp [gt, at'] at this

/-- `goal(1). need(1).` with `outputs: goal(X) += need(X).` -/
def needP : List (WRule TV) := [⟨at' "goal" [n 1], []⟩, ⟨at' "need" [n 1], []⟩]

/-- **The conditions of a declared output are never demanded**: `goal(1)` is derivable, and so is its condition, but the magic
program derives neither. -/
theorem C57_output_condition : ∃ q m, magic ⟨demoS, 20, [], fun _ => false⟩ needP [⟨at' "goal" [.var 0], [.sub (at' "need" [.var 0])]⟩] 0 = some (q, m) ∧
    Der (· = TV.t) needP (fun _ => False) (gt (at' "goal" [n 1])) ∧ Der (· = TV.t) needP (fun _ => False) (gt (at' "need" [n 1])) ∧
    ∀ x, ¬ Der (· = TV.t) q (fun _ => False) x := by
  refine ⟨[⟨at' "$magic1" [at' "goal" [.var 0]], [.sub (at' "need" [.var 0])]⟩, ⟨at' "goal" [n 1], [.sub (at' "$magic1" [at' "goal" [n 1]])]⟩,
    ⟨at' "need" [n 1], [.sub (at' "$magic1" [at' "need" [n 1]])]⟩], .str "$magic1", by decide +kernel, ?_, ?_, fun x h => ?_⟩
  · exact Der.rule (r := needP[0]) (by simp) (fun _ => g0) (by simp [needP]) (by simp [needP])
  · exact Der.rule (r := needP[1]) (by simp) (fun _ => g0) (by simp [needP]) (by simp [needP])
  · induction h with
    | data h => exact h
    | @rule r hr θ hw hb ih =>
      simp only [List.mem_cons, List.not_mem_nil, or_false] at hr
      rcases hr with rfl | rfl | rfl
      · exact ih _ (List.mem_cons_self ..)
      · exact ih _ (List.mem_cons_self ..)
      · exact ih _ (List.mem_cons_self ..)

/-- **`_useful` does not choose a new name**: a rule of the program for `$useful` is mixed up with the new rules. -/
theorem C58_name_clash : ∃ (p : List (WRule TV)) (z : GTm), isBuiltin demoS z.1 = false ∧
    Der (· = TV.t) (useful demoS p [⟨at' "goal" [], []⟩]) (fun _ => False) (wrap uf z) ∧
    ∀ T, Valid (· = TV.t) p (fun _ => False) T → T.root = gt (at' "goal" []) → ¬ Occ z T := by
  refine ⟨[⟨at' "$useful" [at' "a" []], []⟩, ⟨at' "goal" [], []⟩], gt (at' "a" []), by decide +kernel, ?_, fun T hv hT hO => ?_⟩
  · exact Der.rule (r := ⟨at' "$useful" [at' "a" []], []⟩) (mem_useful.2 (.old (by simp))) (fun _ => g0) (by simp) (by simp)
  · cases hv with
    | leaf h => exact h
    | @node r hr θ hw subs he hs =>
      have : subs = [] := by
        simp only [List.mem_cons, List.not_mem_nil, or_false] at hr
        rcases hr with rfl | rfl <;> simpa [subgoals] using he
      subst this
      have hl : ∀ {z y : GTm}, Occ z (.mk y []) → z = y := fun h => by
        cases h with
        | here _ => rfl
        | sub _ h _ => simp at h
      have := congrArg Subtype.val ((hl hO).trans hT)
      simp [gt, at'] at this

end Violations

end Magic
end Verif
