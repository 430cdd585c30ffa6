/-
What it means that a transformation which adds items with new names changes nothing else, and a criterion.
-/
import Verif.FoldThm
import Verif.SemFold

set_option linter.unusedSectionVars false
set_option linter.unusedSimpArgs false

namespace Verif
open Tm

namespace Sem
open Classical
variable {W : Type} [CSemi W]

/-- `v` with the items `N` set to zero -/
noncomputable def off (N : GTm → Prop) (v : GTm → W) : GTm → W := fun x => if N x then 0 else v x

/-- `q` says the same as `p` about all items outside `N`: every solution of `p` has an extension to `N` solving `q`,
every solution of `q` is such an extension, and the extension is unique.  The input data says nothing about `N`. -/
structure Conservative (N : GTm → Prop) (p q : List (WRule W)) : Prop where
  extend : ∀ d, (∀ x, N x → d x = 0) → ∀ v, Sol p d v → ∃ w, Sol q d w ∧ ∀ x, ¬ N x → w x = v x
  restrict : ∀ d, (∀ x, N x → d x = 0) → ∀ w, Sol q d w → Sol p d (off N w)
  unique : ∀ d, (∀ x, N x → d x = 0) → ∀ w w', Sol q d w → Sol q d w' → (∀ x, ¬ N x → w x = w' x) → w = w'

/-- naive evaluation of `q` and of `p` have the same upper bounds on all items outside `N` -/
def SameLeast {W : Type} [OSemi W] (N : GTm → Prop) (p q : List (WRule W)) : Prop :=
  ∀ d : GTm → W, (∀ x, N x → d x = 0) → ∀ x, ¬ N x → ∀ b, (∀ n, rounds p d n x ≤ b) ↔ ∀ n, rounds q d n x ≤ b

theorem off_off (M N : GTm → Prop) (v : GTm → W) : off M (off N v) = off (fun x => M x ∨ N x) v := by
  funext x; unfold off; by_cases h1 : M x <;> by_cases h2 : N x <;> simp [h1, h2]

theorem Conservative.refl (N : GTm → Prop) {p : List (WRule W)} (h : ∀ v x, N x → T p v x = 0) : Conservative N p p where
  extend := fun d _ v hv => ⟨v, hv, fun _ _ => rfl⟩
  restrict := fun d hd w hw => by
    have : off N w = w := by
      funext x; unfold off; split
      · rename_i hx; rw [hw x, hd x hx, h w x hx, add_zero]
      · rfl
    rw [this]; exact hw
  unique := fun d hd w w' hw hw' e => by
    funext x
    by_cases hx : N x
    · rw [hw x, hw' x, h w x hx, h w' x hx]
    · exact e x hx

theorem Conservative.trans {M N : GTm → Prop} {p q r : List (WRule W)} (h : Conservative M p q) (h' : Conservative N q r) :
    Conservative (fun x => M x ∨ N x) p r where
  extend := fun d hd v hv => by
    obtain ⟨w, hw, e⟩ := h.extend d (fun x hx => hd x (.inl hx)) v hv
    obtain ⟨u, hu, e'⟩ := h'.extend d (fun x hx => hd x (.inr hx)) w hw
    exact ⟨u, hu, fun x hx => by rw [e' x (fun h => hx (.inr h)), e x (fun h => hx (.inl h))]⟩
  restrict := fun d hd w hw => by
    rw [← off_off]
    exact h.restrict d (fun x hx => hd x (.inl hx)) _ (h'.restrict d (fun x hx => hd x (.inr hx)) w hw)
  unique := fun d hd w w' hw hw' e => by
    refine h'.unique d (fun x hx => hd x (.inr hx)) w w' hw hw' fun x hx => ?_
    have := h.unique d (fun x hx => hd x (.inl hx)) _ _ (h'.restrict d (fun x hx => hd x (.inr hx)) w hw)
      (h'.restrict d (fun x hx => hd x (.inr hx)) w' hw') (fun y hy => by
        unfold off; split
        · rfl
        · rename_i hn; exact e y (by tauto))
    have := congrFun this x
    simpa [off, hx] using this

theorem SameLeast.refl {W : Type} [OSemi W] (N : GTm → Prop) (p : List (WRule W)) : SameLeast N p p := fun _ _ _ _ _ => Iff.rfl

theorem SameLeast.trans {W : Type} [OSemi W] {M N : GTm → Prop} {p q r : List (WRule W)} (h : SameLeast M p q) (h' : SameLeast N q r) :
    SameLeast (fun x => M x ∨ N x) p r := fun d hd x hx b =>
  (h d (fun y hy => hd y (.inl hy)) x (fun e => hx (.inl e)) b).trans (h' d (fun y hy => hd y (.inr hy)) x (fun e => hx (.inr e)) b)

/-- the criterion: `q` gives the items `N` the values `e`, computed from items outside `N`, and agrees with `p`
on the others once those values are in place -/
structure Extends (N : GTm → Prop) (p q : List (WRule W)) (e : (GTm → W) → GTm → W) : Prop where
  blind : ∀ v w, (∀ x, ¬ N x → v x = w x) → ∀ x, T p v x = T p w x
  none : ∀ v x, N x → T p v x = 0
  eblind : ∀ v w, (∀ x, ¬ N x → v x = w x) → ∀ x, N x → e v x = e w x
  new : ∀ v x, N x → T q v x = e v x
  old : ∀ v, (∀ x, N x → v x = e v x) → ∀ x, ¬ N x → T q v x = T p v x

namespace Extends
variable {N : GTm → Prop} {p q : List (WRule W)} {e : (GTm → W) → GTm → W}

/-- `v` with the defined values for `N` -/
noncomputable def fill (N : GTm → Prop) (e : (GTm → W) → GTm → W) (v : GTm → W) : GTm → W := fun x => if N x then e v x else v x

theorem fill_off (v : GTm → W) (x : GTm) (h : ¬ N x) : fill N e v x = v x := by simp [fill, h]

theorem fill_fix (h : Extends N p q e) (v : GTm → W) (x : GTm) (hx : N x) : fill N e v x = e (fill N e v) x := by
  rw [h.eblind (fill N e v) v (fill_off v) x hx]; simp [fill, hx]

theorem T_fill (h : Extends N p q e) (v : GTm → W) (x : GTm) : T q (fill N e v) x = if N x then e v x else T p v x := by
  split
  · rename_i hx; rw [h.new _ x hx, h.eblind _ v (fill_off v) x hx]
  · rename_i hx; rw [h.old _ (h.fill_fix v) x hx, h.blind _ v (fill_off v)]

theorem conservative (h : Extends N p q e) : Conservative N p q where
  extend := fun d hd v hv => ⟨fill N e v, fun x => by
    rw [h.T_fill]
    by_cases hx : N x
    · simp [fill, hx, hd x hx]
    · simp only [fill, if_neg hx]; exact hv x, fun x hx => by simp [fill, hx]⟩
  restrict := fun d hd w hw x => by
    have he : ∀ x, N x → w x = e w x := fun x hx => by rw [← h.new w x hx]; conv_lhs => rw [hw x, hd x hx, zero_add]
    have : ∀ x, T p (off N w) x = T p w x := h.blind _ _ fun y hy => by simp [off, hy]
    rw [this]
    by_cases hx : N x
    · simp [off, hx, hd x hx, h.none w x hx]
    · rw [← h.old w he x hx]; simp only [off, if_neg hx]; exact hw x
  unique := fun d hd w w' hw hw' a => by
    funext x
    by_cases hx : N x
    · rw [hw x, hw' x, h.new w x hx, h.new w' x hx, h.eblind w w' a x hx]
    · exact a x hx

section
variable {W : Type} [OSemi W] {N : GTm → Prop} {p q : List (WRule W)} {e : (GTm → W) → GTm → W}

theorem rounds_le (h : Extends N p q e) {d : GTm → W} (hd : ∀ x, N x → d x = 0) (n : Nat) :
    ∀ x, rounds q d n x ≤ fill N e (rounds p d n) x := by
  induction n with
  | zero => intro x; exact OSemi.zero_le' _
  | succ n ih =>
    intro x
    show d x + T q (rounds q d n) x ≤ _
    refine le_trans (OSemi.add_le le_rfl (T_mono ih q x)) ?_
    rw [h.T_fill]
    by_cases hx : N x
    · simp only [if_pos hx, fill, hd x hx, zero_add]
      have e1 : ∀ m, e (rounds p d m) x = T q (fill N e (rounds p d m)) x := fun m => by rw [h.T_fill, if_pos hx]
      have e2 : ∀ m, e (rounds p d m) x = T q (rounds p d m) x := fun m => by rw [h.new _ x hx]
      rw [e2, e2]
      exact T_mono (rounds_succ p d n) q x
    · simp only [if_neg hx, fill]; exact le_rfl

theorem rounds_ge (h : Extends N p q e) {d : GTm → W} (hd : ∀ x, N x → d x = 0) (n : Nat) :
    ∀ x, ¬ N x → rounds p d n x ≤ rounds q d (2 * n) x := by
  induction n with
  | zero => intro x _; exact OSemi.zero_le' _
  | succ n ih =>
    intro x hx
    show d x + T p (rounds p d n) x ≤ d x + T q (rounds q d (2 * n + 1)) x
    refine OSemi.add_le le_rfl ?_
    have e1 : T p (rounds p d n) x = T p (off N (rounds p d n)) x := h.blind _ _ (fun y hy => by simp [off, hy]) x
    have e2 : T p (off N (rounds p d n)) x ≤ T p (off N (rounds q d (2 * n))) x := T_mono (fun y => by
      unfold off; split
      · exact le_rfl
      · rename_i hy; exact ih y hy) p x
    have e3 : T p (off N (rounds q d (2 * n))) x = T p (rounds q d (2 * n)) x := h.blind _ _ (fun y hy => by simp [off, hy]) x
    have e4 : T p (rounds q d (2 * n)) x = T q (fill N e (rounds q d (2 * n))) x := by rw [h.T_fill, if_neg hx]
    rw [e1]; refine le_trans e2 ?_
    rw [e3, e4]
    refine T_mono (fun y => ?_) q x
    unfold fill
    split
    · rename_i hy
      show _ ≤ d y + T q (rounds q d (2 * n)) y
      rw [hd y hy, zero_add, h.new _ y hy]
    · exact rounds_succ q d (2 * n) y

theorem sameLeast (h : Extends N p q e) : SameLeast N p q := fun d hd x hx b =>
  ⟨fun hb n => le_trans (h.rounds_le hd n x) (by rw [fill_off _ _ hx]; exact hb n),
    fun hb n => le_trans (h.rounds_ge hd n x hx) (hb _)⟩
end
end Extends

/-! ### New names -/

/-- the item's functor is `f` -/
def IsFn (f : Const) (x : GTm) : Prop := hfn x.1 = some f

/-- no instance of the term is in `N` -/
def Avoids (N : GTm → Prop) (t : Tm) : Prop := ∀ θ, ¬ N (gsub θ t)

/-- neither head nor body mention `N` -/
structure Clean (N : GTm → Prop) (r : WRule W) : Prop where
  head : Avoids N r.head
  body : ∀ t, Lit.sub t ∈ r.body → Avoids N t

theorem T_clean_zero {N : GTm → Prop} {p : List (WRule W)} (h : ∀ r ∈ p, Avoids N r.head) (v : GTm → W) {x : GTm} (hx : N x) :
    T p v x = 0 := by
  unfold T
  apply List.sum_eq_zero
  intro y hy
  obtain ⟨r, hr, rfl⟩ := List.mem_map.1 hy
  exact contrib_zero fun θ e => h r hr θ (e ▸ hx)

theorem contrib_blind {N : GTm → Prop} {r : WRule W} (h : ∀ t, Lit.sub t ∈ r.body → Avoids N t) {v w : GTm → W}
    (e : ∀ x, ¬ N x → v x = w x) (x : GTm) : contrib r v x = contrib r w x :=
  contrib_congr (fun t ht θ => e _ (h t ht θ)) x

theorem T_blind {N : GTm → Prop} {p : List (WRule W)} (h : ∀ r ∈ p, ∀ t, Lit.sub t ∈ r.body → Avoids N t) {v w : GTm → W}
    (e : ∀ x, ¬ N x → v x = w x) (x : GTm) : T p v x = T p w x := by
  unfold T
  congr 1
  exact List.map_congr_left fun r hr => contrib_blind (h r hr) e x

/-- the term has a constant functor -/
def Named (t : Tm) : Prop := ∃ c as, t = .app (.con c :: as)

theorem hfn_gsub {t : Tm} (h : Named t) (θ : Nat → GTm) : hfn (gsub θ t).1 = hfn t := by
  obtain ⟨c, as, rfl⟩ := h
  simp [gsub, hfn]

theorem avoids_of_ne {f : Const} {t : Tm} (h : Named t) (hf : hfn t ≠ some f) : Avoids (IsFn f) t := fun θ e => hf (by
  rw [← hfn_gsub h θ]; exact e)

/-- heads and subgoals have constant functors -/
structure NamedRule (r : WRule W) : Prop where
  head : Named r.head
  body : ∀ t, Lit.sub t ∈ r.body → Named t

end Sem
end Verif
