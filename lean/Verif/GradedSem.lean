/-
Rules read over graded values: the solution graded by derivation size, and what it says about the rounds of naive
evaluation of other programs.
-/
import Verif.Graded

set_option linter.unusedSectionVars false
set_option linter.unusedSimpArgs false

namespace Verif
open Tm Heap Sem
open Unfold (mapRule mapLit Tw Tw_cons Tw_nil Tw_append contrib_lift_eq)

namespace Gr
section
variable {W : Type} [CSemi W]

/-- value of a body over graded values -/
def gbv (V : GTm → Gr W) (θ : Nat → GTm) (b : List (Lit W)) : Gr W := bv V θ (b.map (mapLit lift))

theorem gbv_nil (V : GTm → Gr W) (θ : Nat → GTm) : gbv V θ [] = 1 := rfl
theorem gbv_val (V : GTm → Gr W) (θ : Nat → GTm) (c : W) (b : List (Lit W)) : gbv V θ (.val c :: b) = lift c * gbv V θ b := by
  simp only [gbv, List.map_cons, mapLit, bv_cons, lv]
theorem gbv_sub (V : GTm → Gr W) (θ : Nat → GTm) (t : Tm) (b : List (Lit W)) : gbv V θ (.sub t :: b) = V (gsub θ t) * gbv V θ b := by
  simp only [gbv, List.map_cons, mapLit, bv_cons, lv]

theorem gcontrib_eq (r : WRule W) (V : GTm → Gr W) (x : GTm) :
    contrib (mapRule lift r) V x = isum fun a : Asg (rvars r) => if gsub (ext a) r.head = x then gbv V (ext a) r.body else 0 :=
  contrib_lift_eq lift r V x

theorem supp_lift (c : W) : Supp 0 (lift c) := supp_at 0 c

theorem gbv_supp0 {V : GTm → Gr W} (hV : ∀ x, Supp 0 (V x)) (θ : Nat → GTm) : ∀ b : List (Lit W), Supp 0 (gbv V θ b)
  | [] => supp_at 0 1
  | .val c :: b => by rw [gbv_val]; exact (supp_lift c).mul (gbv_supp0 hV θ b)
  | .sub t :: b => by rw [gbv_sub]; exact (hV _).mul (gbv_supp0 hV θ b)

theorem gcontrib_supp0 {V : GTm → Gr W} (hV : ∀ x, Supp 0 (V x)) (r : WRule W) (x : GTm) : Supp 0 (contrib (mapRule lift r) V x) := by
  rw [gcontrib_eq]
  refine supp_isum fun a => ?_
  split
  · exact gbv_supp0 hV _ _
  · exact supp_zero _

theorem gbv_agree {n : ℤ} {V V' : GTm → Gr W} (hV : ∀ x, Supp 0 (V x)) (hV' : ∀ x, Supp 0 (V' x)) (h : ∀ x, Agree n (V x) (V' x))
    (θ : Nat → GTm) : ∀ b : List (Lit W), Agree n (gbv V θ b) (gbv V' θ b)
  | [] => .refl _ _
  | .val c :: b => by
    rw [gbv_val, gbv_val]
    exact (Agree.refl _ _).mul (gbv_agree hV hV' h θ b) (supp_lift c) (supp_lift c) (gbv_supp0 hV θ b) (gbv_supp0 hV' θ b)
  | .sub t :: b => by
    rw [gbv_sub, gbv_sub]
    exact (h _).mul (gbv_agree hV hV' h θ b) (hV _) (hV' _) (gbv_supp0 hV θ b) (gbv_supp0 hV' θ b)

theorem gcontrib_agree {n : ℤ} {V V' : GTm → Gr W} (hV : ∀ x, Supp 0 (V x)) (hV' : ∀ x, Supp 0 (V' x)) (h : ∀ x, Agree n (V x) (V' x))
    (r : WRule W) (x : GTm) : Agree n (contrib (mapRule lift r) V x) (contrib (mapRule lift r) V' x) := by
  rw [gcontrib_eq, gcontrib_eq]
  refine agree_isum fun a => ?_
  split
  · exact gbv_agree hV hV' h _ _
  · exact .refl _ _

theorem tw_agree {ι : Type} {n : ℤ} {V V' : GTm → Gr W} (hV : ∀ x, Supp 0 (V x)) (hV' : ∀ x, Supp 0 (V' x)) (h : ∀ x, Agree n (V x) (V' x))
    {w : ι → ℤ} {l : List (WRule W × ι)} (hw : ∀ t ∈ l, 1 ≤ w t.2) (x : GTm) :
    Agree (n + 1) (Tw lift (fun i => mono (w i)) l V x) (Tw lift (fun i => mono (w i)) l V' x) := by
  induction l with
  | nil => exact .refl _ _
  | cons t l ih =>
    intro k hk
    rw [Tw_cons, Tw_cons, add_def, add_def, ih (fun t ht => hw t (List.mem_cons_of_mem _ ht)) k hk,
      agree_mono (hw t (by simp)) (gcontrib_agree hV hV' h t.1 x) k hk]

theorem tw_supp {ι : Type} {V : GTm → Gr W} (hV : ∀ x, Supp 0 (V x)) {w : ι → ℤ} {l : List (WRule W × ι)} (hw : ∀ t ∈ l, 1 ≤ w t.2)
    (x : GTm) : Supp 1 (Tw lift (fun i => mono (w i)) l V x) := by
  unfold Tw
  refine supp_sum fun A hA => ?_
  obtain ⟨t, ht, rfl⟩ := List.mem_map.1 hA
  exact ((supp_at (w t.2) (1 : W)).mul (gcontrib_supp0 hV t.1 x)).le (by have := hw t ht; omega)

/-- the approximations of the graded solution -/
noncomputable def approx {ι : Type} (l : List (WRule W × ι)) (w : ι → ℤ) (d : GTm → W) (sz : GTm → ℤ) : Nat → GTm → Gr W
  | 0 => fun _ => 0
  | n + 1 => fun x => at' (sz x) (d x) + Tw lift (fun i => mono (w i)) l (approx l w d sz n) x

/-- **The graded solution.**  If every rule has a positive size, the equations of the program have a solution in which values are
graded by derivation size (the data of `x` having size `sz x`). -/
theorem exists_solution {ι : Type} (l : List (WRule W × ι)) (w : ι → ℤ) (hw : ∀ t ∈ l, 1 ≤ w t.2) (d : GTm → W) (sz : GTm → ℤ)
    (hs : ∀ x, 0 ≤ sz x ∧ sz x ≤ 1) :
    ∃ V : GTm → Gr W, (∀ x, V x = at' (sz x) (d x) + Tw lift (fun i => mono (w i)) l V x) ∧ ∀ x, Supp (sz x) (V x) := by
  set A := approx l w d sz with hA
  have s0 : ∀ n x, Supp 0 (A n x) := by
    intro n
    induction n with
    | zero => intro x; exact supp_zero 0
    | succ n ih => intro x; exact ((supp_at (sz x) (d x)).le (hs x).1).add ((tw_supp ih hw x).le (by norm_num))
  have sA : ∀ n x, Supp (sz x) (A n x) := by
    intro n
    cases n with
    | zero => intro x; exact supp_zero _
    | succ n => intro x; exact (supp_at (sz x) (d x)).add ((tw_supp (s0 n) hw x).le (hs x).2)
  have step : ∀ n : Nat, ∀ x, Agree (n - 1) (A n x) (A (n + 1) x) := by
    intro n
    induction n with
    | zero => intro x k hk; rw [s0 0 x k (by simp at hk; omega), s0 1 x k (by simp at hk; omega)]
    | succ n ih =>
      intro x k hk
      show (at' (sz x) (d x) + Tw lift (fun i => mono (w i)) l (A n) x) k = (at' (sz x) (d x) + Tw lift (fun i => mono (w i)) l (A (n + 1)) x) k
      rw [add_def, add_def, tw_agree (s0 n) (s0 (n + 1)) ih hw x k (by push_cast at hk; omega)]
  have steps : ∀ m n : Nat, m ≤ n → ∀ x, Agree (m - 1) (A m x) (A n x) := by
    intro m n hmn x
    induction hmn with
    | refl => exact .refl _ _
    | step hle ih =>
      rename_i n
      intro k hk
      rw [ih k hk]
      exact step n x k (by have : m ≤ n := hle; omega)
  let V : GTm → Gr W := fun x k => A (k.toNat + 1) x k
  have hV : ∀ (m : Nat) x, Agree (m - 1) (V x) (A m x) := by
    intro m x k hk
    show A (k.toNat + 1) x k = A m x k
    by_cases h0 : k < 0
    · rw [s0 _ x k h0, s0 _ x k h0]
    · exact steps (k.toNat + 1) m (by omega) x k (by push_cast; omega)
  have sV : ∀ x, Supp (sz x) (V x) := fun x k hk => sA _ x k hk
  refine ⟨V, fun x => ?_, sV⟩
  ext k
  rw [hV (k.toNat + 2) x k (by push_cast; omega)]
  show (at' (sz x) (d x) + Tw lift (fun i => mono (w i)) l (A (k.toNat + 1)) x) k = _
  rw [add_def, add_def]
  congr 1
  exact (tw_agree (fun x => (sV x).le (hs x).1) (s0 (k.toNat + 1)) (hV (k.toNat + 1)) hw x k (by push_cast; omega)).symm

end

/-! ### Bounds -/
section
variable {W : Type} [OSemi W]

theorem gcontrib_late {V V' : GTm → Gr W} (h : ∀ x, Late (V x) (V' x)) (r : WRule W) (x : GTm) :
    Late (contrib (mapRule lift r) V x) (contrib (mapRule lift r) V' x) := by
  have hb : ∀ (θ : Nat → GTm) (b : List (Lit W)), Late (gbv V θ b) (gbv V' θ b) := by
    intro θ b
    induction b with
    | nil => exact .refl _
    | cons l b ih =>
      cases l with
      | val c => rw [gbv_val, gbv_val]; exact ih.mul_right _
      | sub t => rw [gbv_sub, gbv_sub]; exact (h _).mul ih
  rw [gcontrib_eq, gcontrib_eq]
  refine late_isum fun a => ?_
  split
  · exact hb _ _
  · exact .refl _

/-- size of the body for a given size of items -/
def bsize (sz : GTm → ℤ) (θ : Nat → GTm) (b : List (Lit W)) : ℤ := (b.map fun l => match l with
  | .val _ => 0
  | .sub t => sz (gsub θ t)).sum

theorem bsize_nil (sz : GTm → ℤ) (θ : Nat → GTm) : bsize sz θ ([] : List (Lit W)) = 0 := rfl
theorem bsize_val (sz : GTm → ℤ) (θ : Nat → GTm) (c : W) (b : List (Lit W)) : bsize sz θ (.val c :: b) = bsize sz θ b := by simp [bsize]
theorem bsize_sub (sz : GTm → ℤ) (θ : Nat → GTm) (t : Tm) (b : List (Lit W)) :
    bsize sz θ (.sub t :: b) = sz (gsub θ t) + bsize sz θ b := by simp [bsize]

theorem bsize_nonneg {sz : GTm → ℤ} (hs : ∀ x, 0 ≤ sz x ∧ sz x ≤ 1) (θ : Nat → GTm) : ∀ b : List (Lit W), 0 ≤ bsize sz θ b
  | [] => le_refl _
  | .val c :: b => by rw [bsize_val]; exact bsize_nonneg hs θ b
  | .sub t :: b => by rw [bsize_sub]; have := bsize_nonneg hs θ b; have := (hs (gsub θ t)).1; omega

theorem gbv_supp {sz : GTm → ℤ} {V : GTm → Gr W} (hV : ∀ x, Supp (sz x) (V x)) (θ : Nat → GTm) :
    ∀ b : List (Lit W), Supp (bsize sz θ b) (gbv V θ b)
  | [] => supp_at 0 1
  | .val c :: b => by
    rw [gbv_val, bsize_val]
    simpa using (supp_lift c).mul (gbv_supp hV θ b)
  | .sub t :: b => by rw [gbv_sub, bsize_sub]; exact (hV _).mul (gbv_supp hV θ b)

theorem cum_one_le (n : ℤ) : cum n (1 : Gr W) ≤ 1 := by
  rw [one_def, cum_at]
  split
  · exact le_refl _
  · exact OSemi.zero_le' _

theorem cum_at_le (n k : ℤ) (c : W) : cum n (at' k c) ≤ c := by
  rw [cum_at]
  split
  · exact le_refl _
  · exact OSemi.zero_le' _

/-- what a body is worth up to size `n` is bounded by the values its subgoals have up to what the others leave -/
theorem cum_gbv_le {sz : GTm → ℤ} (hs : ∀ x, 0 ≤ sz x ∧ sz x ≤ 1) {V : GTm → Gr W} (hV : ∀ x, Supp (sz x) (V x)) {R : GTm → W} (θ : Nat → GTm) :
    ∀ (b : List (Lit W)) (n : ℤ), (∀ t, Lit.sub t ∈ b → sz (gsub θ t) = 0 → ∀ m, cum m (V (gsub θ t)) ≤ R (gsub θ t)) →
      (∀ t, Lit.sub t ∈ b → sz (gsub θ t) = 1 → ∀ m ≤ n - bsize sz θ b + 1, cum m (V (gsub θ t)) ≤ R (gsub θ t)) →
      cum n (gbv V θ b) ≤ bv R θ b
  | [], n, _, _ => cum_one_le n
  | .val c :: b, n, h0, h1 => by
    rw [gbv_val, cum_lift_mul, bv_cons]
    exact OSemi.mul_le (le_refl _) (cum_gbv_le hs hV θ b n (fun t ht => h0 t (List.mem_cons_of_mem _ ht))
      (fun t ht => by simpa [bsize_val] using h1 t (List.mem_cons_of_mem _ ht)))
  | .sub t :: b, n, h0, h1 => by
    rw [gbv_sub, bv_cons]
    refine le_trans (mul_cum_le (hV _) (gbv_supp hV θ b)) (OSemi.mul_le ?_ ?_)
    · rcases (by have := hs (gsub θ t); omega : sz (gsub θ t) = 0 ∨ sz (gsub θ t) = 1) with h | h
      · exact h0 t (by simp) h _
      · exact h1 t (by simp) h _ (by rw [bsize_sub, h]; omega)
    · exact cum_gbv_le hs hV θ b _ (fun t ht => h0 t (List.mem_cons_of_mem _ ht))
        (fun t' ht' h' m hm => h1 t' (List.mem_cons_of_mem _ ht') h' m (by rw [bsize_sub]; omega))

/-- a body is worth at least what its subgoals are worth up to `S`, if all sizes may add up -/
theorem le_cum_gbv {V : GTm → Gr W} {R : GTm → W} {S : ℤ} (hS : 0 ≤ S) (h : ∀ x, R x ≤ cum S (V x)) (θ : Nat → GTm) :
    ∀ b : List (Lit W), bv R θ b ≤ cum (b.length * S) (gbv V θ b)
  | [] => by
    rw [gbv_nil, one_def, cum_at, if_pos (by simp)]
    exact le_refl _
  | .val c :: b => by
    rw [gbv_val, cum_lift_mul, bv_cons]
    refine OSemi.mul_le (le_refl _) (le_trans (le_cum_gbv hS h θ b) (cum_le_cum ?_ _))
    simp only [List.length_cons, Nat.cast_add, Nat.cast_one, add_mul, one_mul]
    omega
  | .sub t :: b => by
    rw [gbv_sub, bv_cons]
    refine le_trans (OSemi.mul_le (h _) (le_cum_gbv hS h θ b)) (le_trans (cum_mul_le _ _ _ _) (cum_le_cum ?_ _))
    simp only [List.length_cons, Nat.cast_add, Nat.cast_one, add_mul, one_mul]
    omega

variable {ι : Type} {sz : GTm → ℤ} {V : GTm → Gr W} {d : GTm → W}

/-- **From below.**  If the rules of `q`, with sizes bounded from below, account for all of `V`, and every rule makes derivations
larger, then naive evaluation of `q` reaches everything in `V`. -/
theorem cum_le_rounds (hs : ∀ x, 0 ≤ sz x ∧ sz x ≤ 1) (hV : ∀ x, Supp (sz x) (V x)) {q : List (WRule W × ι)} {lo : ι → ℤ}
    (hlo : ∀ x, Late (V x) (at' (sz x) (d x) + Tw lift (fun i => mono (lo i)) q V x))
    (hb : ∀ x, sz x = 0 → ∀ n, cum n (V x) ≤ d x)
    (hg : ∀ t ∈ q, ∀ θ, 2 ≤ lo t.2 + max 1 (bsize sz θ t.1.body)) :
    ∀ (k : Nat) x, cum (k - 1) (V x) ≤ rounds (q.map Prod.fst) d k x := by
  intro k
  induction k with
  | zero => intro x; rw [cum_supp ((hV x).le (hs x).1) (by simp)]; exact OSemi.zero_le' _
  | succ k ih =>
    intro x
    have hc : ((k + 1 : Nat) : ℤ) - 1 = k := by push_cast; ring
    rw [hc]
    refine le_trans (hlo x k) ?_
    rw [cum_add]
    show _ ≤ d x + T (q.map Prod.fst) (rounds (q.map Prod.fst) d k) x
    refine OSemi.add_le (cum_at_le _ _ _) ?_
    unfold Tw T
    rw [cum_list, List.map_map, List.map_map]
    have key : ∀ t ∈ q, cum (k - lo t.2) (contrib (mapRule lift t.1) V x) ≤ contrib t.1 (rounds (q.map Prod.fst) d k) x := by
      intro t ht
      rw [gcontrib_eq, cum_isum, contrib_eq rfl]
      refine OSemi.isum_le fun a => ?_
      split
      · have hg' := hg t ht (ext a)
        have hn := bsize_nonneg hs (ext a) t.1.body
        by_cases h0 : (k : ℤ) - lo t.2 < bsize sz (ext a) t.1.body
        · rw [cum_supp (gbv_supp hV _ _) h0]; exact OSemi.zero_le' _
        · have hk : 1 ≤ k := by
            rcases Nat.eq_zero_or_pos k with h | h
            · subst h
              exfalso
              push_cast at h0
              rcases le_total (1 : ℤ) (bsize sz (ext a) t.1.body) with h1 | h1
              · rw [max_eq_right h1] at hg'; omega
              · rw [max_eq_left h1] at hg'; omega
            · exact h
          refine cum_gbv_le hs hV _ _ _ (fun t _ hz m => ?_) (fun u hu hz m hm => ?_)
          · refine le_trans (hb _ hz m) ?_
            refine le_trans ?_ (rounds_mono _ d hk _)
            show d _ ≤ d _ + _
            conv_lhs => rw [← add_zero (d _)]
            exact OSemi.add_le (le_refl _) (OSemi.zero_le' _)
          · refine le_trans (cum_le_cum ?_ _) (ih _)
            have : 1 ≤ bsize sz (ext a) t.1.body := by
              have : ∀ b : List (Lit W), Lit.sub u ∈ b → 1 ≤ bsize sz (ext a) b := by
                intro b
                induction b with
                | nil => intro h; simp at h
                | cons l b ihb =>
                  intro h
                  have hnb := bsize_nonneg hs (ext a) b
                  cases l with
                  | val c => rw [bsize_val]; exact ihb (by simpa using h)
                  | sub s =>
                    rw [bsize_sub]
                    have := hs (gsub (ext a) s)
                    rcases List.mem_cons.1 h with h | h
                    · cases h; omega
                    · have := ihb h; omega
              exact this _ hu
            rw [max_eq_right this] at hg'
            omega
      · rw [cum_zero]
    clear hlo ih hg
    induction q with
    | nil => exact le_refl _
    | cons t q ihq =>
      simp only [List.map_cons, List.sum_cons, Function.comp, cum_mono_mul] at key ⊢
      refine OSemi.add_le (key t (by simp)) ?_
      have aux : ∀ (l : List (WRule W × ι)) (u : GTm → W), (∀ t ∈ l, cum (k - lo t.2) (contrib (mapRule lift t.1) V x) ≤ contrib t.1 u x) →
          (l.map fun t => cum (k - lo t.2) (contrib (mapRule lift t.1) V x)).sum ≤ (l.map fun t => contrib t.1 u x).sum := by
        intro l u
        induction l with
        | nil => intro _; exact le_refl _
        | cons a l ihl =>
          intro h
          simp only [List.map_cons, List.sum_cons]
          exact OSemi.add_le (h a (by simp)) (ihl fun t ht => h t (List.mem_cons_of_mem _ ht))
      have := aux q _ fun t ht => key t (List.mem_cons_of_mem _ ht)
      simpa only [Function.comp_def, cum_mono_mul] using this

/-- **From above.**  If the rules of `q`, with sizes bounded from above, are accounted for in `V`, naive evaluation of `q`
stays within `V`. -/
theorem rounds_le_cum (hs : ∀ x, 0 ≤ sz x ∧ sz x ≤ 1) {q : List (WRule W × ι)} {hi : ι → ℤ}
    (hhi : ∀ x, Late (at' (sz x) (d x) + Tw lift (fun i => mono (hi i)) q V x) (V x)) :
    ∀ k : Nat, ∃ S : ℤ, 0 ≤ S ∧ ∀ x, rounds (q.map Prod.fst) d k x ≤ cum S (V x) := by
  intro k
  induction k with
  | zero => exact ⟨0, le_refl _, fun x => OSemi.zero_le' _⟩
  | succ k ih =>
    obtain ⟨S, hS, ih⟩ := ih
    have hmax : ∃ S' : ℤ, 1 ≤ S' ∧ ∀ t ∈ q, t.1.body.length * S + hi t.2 ≤ S' := by
      clear hhi ih
      induction q with
      | nil => exact ⟨1, le_refl _, by simp⟩
      | cons t q ihq =>
        obtain ⟨S', h1, h2⟩ := ihq
        refine ⟨max S' (t.1.body.length * S + hi t.2), le_trans h1 (le_max_left _ _), fun u hu => ?_⟩
        rcases List.mem_cons.1 hu with rfl | hu
        · exact le_max_right _ _
        · exact le_trans (h2 u hu) (le_max_left _ _)
    obtain ⟨S', h1, h2⟩ := hmax
    refine ⟨S', by omega, fun x => le_trans ?_ (hhi x S')⟩
    rw [cum_add]
    show d x + T (q.map Prod.fst) (rounds (q.map Prod.fst) d k) x ≤ _
    refine OSemi.add_le ?_ ?_
    · rw [cum_at, if_pos (by have := (hs x).2; omega)]
    · generalize rounds (q.map Prod.fst) d k = u at ih
      unfold Tw T
      rw [cum_list, List.map_map, List.map_map]
      clear hhi
      induction q with
      | nil => exact le_refl _
      | cons t q ihq =>
        simp only [List.map_cons, List.sum_cons, Function.comp_def, cum_mono_mul] at ihq ⊢
        refine OSemi.add_le ?_ (ihq fun u hu => h2 u (List.mem_cons_of_mem _ hu))
        rw [gcontrib_eq, cum_isum, contrib_eq rfl]
        refine OSemi.isum_le fun a => ?_
        split
        · refine le_trans (le_cum_gbv hS ih (ext a) t.1.body) (cum_le_cum ?_ _)
          have := h2 t (by simp)
          omega
        · exact OSemi.zero_le' _

end
end Gr
end Verif
