/-
Property C49: a fold/unfold sequence accepted by the measure check computes what the reference program computes.
-/
import Verif.Measure
import Verif.GradedSem
import Verif.UnfoldMono
import Verif.FoldThm

set_option linter.unusedSectionVars false
set_option linter.unusedSimpArgs false

namespace Verif
open Tm Heap Sem
open Solver (noHeap forEach good_noHeap respects_noHeap)

namespace Measure
open Unfold (Prog US Ops unfold Pre Data Below UserHead Shape Tw Tw_cons Tw_nil Tw_append mapRule mapLit contribAt contribAt_self contribAt_congr
  contribAt_smul subLit split_body bval)
open Fold (fold minus WVariant Faithful)
open Gr (lift mono at' cum Supp Late)

/-! ### Lists -/
section
variable {α β γ : Type}

theorem forall₂_of_allSome {g : α → Option β} {l : List α} {r : List β} (h : allSome (l.map g) = some r) :
    List.Forall₂ (fun a b => g a = some b) l r := by
  rw [allSome_eq_some] at h
  have := h
  induction l generalizing r with
  | nil => simp at h; subst h; exact .nil
  | cons a l ih =>
    cases r with
    | nil => simp at h
    | cons b r =>
      simp only [List.map_cons, List.cons.injEq] at h
      exact .cons h.1 (ih h.2 h.2)

theorem forall₂_idx {R : α → β → Prop} : ∀ {l : List α} {m : List β}, l.length = m.length →
    (∀ (i : Nat) a b, l[i]? = some a → m[i]? = some b → R a b) → List.Forall₂ R l m
  | [], [], _, _ => .nil
  | [], _ :: _, h, _ => by simp at h
  | _ :: _, [], h, _ => by simp at h
  | a :: l, b :: m, h, hr => .cons (hr 0 a b rfl rfl) (forall₂_idx (by simpa using h) fun i a b h1 h2 => hr (i + 1) a b (by simpa using h1) (by simpa using h2))

theorem forall₂_at {R : α → β → Prop} : ∀ {l : List α} {m : List β}, List.Forall₂ R l m →
    ∀ (i : Nat) a b, l[i]? = some a → m[i]? = some b → R a b
  | _, _, .nil, i, a, b, h, _ => by simp at h
  | _, _, .cons h t, i, a, b, h1, h2 => by
    cases i with
    | zero => simp at h1 h2; subst h1; subst h2; exact h
    | succ i => exact forall₂_at t i a b (by simpa using h1) (by simpa using h2)

theorem forall₂_append_inv {R : α → β → Prop} {l m : List α} {r : List β} (h : List.Forall₂ R (l ++ m) r) :
    ∃ r1 r2, r = r1 ++ r2 ∧ List.Forall₂ R l r1 ∧ List.Forall₂ R m r2 := by
  induction l generalizing r with
  | nil => exact ⟨[], r, rfl, .nil, h⟩
  | cons a l ih =>
    cases h with
    | cons h t =>
      obtain ⟨r1, r2, rfl, h1, h2⟩ := ih t
      exact ⟨_ :: r1, r2, rfl, .cons h h1, h2⟩

end

/-! ### The alignment of equal programs -/
section
variable {R S' ι : Type} [DecidableEq R] [DecidableEq S'] {o : RuleOps R S'}

/-- aligning equal programs gives every rule of the first a partner, with its measure -/
theorem align_zip (ho : o.Lawful) {ord : List Nat → List Nat} (hord : ∀ l, (ord l).Perm l) {p q : List R} {m : List ι}
    (hm : m.length = q.length) (h : o.progEq false p q = true) :
    ∃ (l : List Nat) (q' : List (R × ι)), (∀ i : Nat, (o.align ord p q).lookup (some i) = l[i]?.map some) ∧ l.length = p.length ∧ q'.Perm (q.zip m) ∧
      List.Forall₂ (fun j (e : R × ι) => q[j]? = some e.1 ∧ m[j]? = some e.2) l q' ∧
      List.Forall₂ (fun r (e : R × ι) => o.same r e.1 = true) p q' := by
  obtain ⟨h1, h2, h3, h4, h5⟩ := RuleOps.C17_align ho hord p q
  have hp := RuleOps.C17_align_perfect ho hord h
  generalize o.align ord p q = A at h1 h2 h3 h4 h5 hp
  have hA : A = (A.filterMap Prod.fst).zipWith (fun i j => (some i, some j)) (A.filterMap Prod.snd) := by
    clear h1 h2 h3 h4 h5
    induction A with
    | nil => rfl
    | cons e A ih =>
      obtain ⟨i, j, rfl⟩ := hp e (by simp)
      simp only [List.filterMap_cons, List.zipWith_cons_cons]
      rw [← ih fun e he => hp e (List.mem_cons_of_mem _ he)]
  have hlen : (A.filterMap Prod.snd).length = p.length := by
    have e1 : ∀ B : List (Option Nat × Option Nat), (∀ e ∈ B, ∃ i j, e = (some i, some j)) →
        (B.filterMap Prod.snd).length = (B.filterMap Prod.fst).length := by
      intro B hB
      induction B with
      | nil => rfl
      | cons e B ih =>
        obtain ⟨i, j, rfl⟩ := hB e (by simp)
        simp only [List.filterMap_cons, List.length_cons]
        rw [ih fun e he => hB e (List.mem_cons_of_mem _ he)]
    rw [e1 A hp, h1, List.length_range]
  generalize hl : A.filterMap Prod.snd = l at hA h2 hlen
  rw [h1] at hA
  have hlook : ∀ (l : List Nat) (b : Nat) i, ((List.range' b l.length).zipWith (fun i j => ((some i : Option Nat), (some j : Option Nat))) l).lookup (some (b + i)) = l[i]?.map some := by
    intro l
    induction l with
    | nil => intro b i; simp
    | cons j l ih =>
      intro b i
      rw [List.length_cons, List.range'_succ, List.zipWith_cons_cons]
      cases i with
      | zero => simp [List.lookup]
      | succ i =>
        rw [List.lookup_cons]
        have : (some (b + (i + 1)) == some b) = false := by simp
        rw [this]
        have := ih (b + 1) i
        rw [Nat.add_assoc, Nat.add_comm 1 i] at this
        simpa using this
  have hpair : ∀ (i j : Nat), l[i]? = some j → ∃ r s, p[i]? = some r ∧ q[j]? = some s ∧ o.same r s = true := by
    intro i j hij
    refine h4 i j ?_
    rw [hA, List.mem_iff_getElem?]
    refine ⟨i, ?_⟩
    have hi : i < p.length := by rw [← hlen]; exact (List.getElem?_eq_some_iff.1 hij).1
    rw [List.getElem?_zipWith, List.getElem?_range hi, hij]
  refine ⟨l, l.filterMap fun j => (q.zip m)[j]?, fun i => ?_, hlen, ?_, ?_, ?_⟩
  · have := hlook l 0 i
    rw [← List.range_eq_range', Nat.zero_add, hlen, ← hA] at this
    exact this
  · have : (List.range q.length).filterMap (fun j => (q.zip m)[j]?) = q.zip m := by
      have hz : (q.zip m).length = q.length := by simp [hm]
      rw [← hz]
      refine List.ext_getElem? fun i => ?_
      generalize q.zip m = z
      clear hz
      have : (List.range z.length).filterMap (fun j => z[j]?) = z := by
        induction z using List.reverseRecOn with
        | nil => rfl
        | append_singleton z a ih =>
          rw [List.length_append, List.length_singleton, List.range_succ, List.filterMap_append]
          congr 1
          · conv_rhs => rw [← ih]
            refine List.filterMap_congr fun j hj => ?_
            rw [List.getElem?_append_left (List.mem_range.1 hj)]
          · simp
      rw [this]
    conv_rhs => rw [← this]
    exact h2.filterMap _
  · have : ∀ l : List Nat, (∀ j ∈ l, j < q.length) →
        List.Forall₂ (fun j (e : R × ι) => q[j]? = some e.1 ∧ m[j]? = some e.2) l (l.filterMap fun j => (q.zip m)[j]?) := by
      intro l hl
      induction l with
      | nil => exact .nil
      | cons j l ih =>
        have hj : j < q.length := hl j (by simp)
        have hz : (q.zip m)[j]? = some (q[j], m[j]'(by omega)) := by
          rw [List.getElem?_eq_getElem (by simp; omega), List.getElem_zip]
        rw [List.filterMap_cons, hz]
        exact .cons ⟨by simp [hj], by simp [hm, hj]⟩ (ih fun j hj => hl j (List.mem_cons_of_mem _ hj))
    exact this l fun j hj => List.mem_range.1 (h2.mem_iff.1 hj)
  · have hlt : ∀ j ∈ l, j < q.length := fun j hj => List.mem_range.1 (h2.mem_iff.1 hj)
    have hfl : (l.filterMap fun j => (q.zip m)[j]?).length = l.length := by
      clear hlen hA hpair h2 hl
      induction l with
      | nil => rfl
      | cons j l ih =>
        have hj : j < q.length := hlt j (by simp)
        rw [List.filterMap_cons, List.getElem?_eq_getElem (by simp; omega)]
        simp [ih fun j hj => hlt j (List.mem_cons_of_mem _ hj)]
    have hget : ∀ (l : List Nat), (∀ j ∈ l, j < q.length) → ∀ (i : Nat) (e : R × ι), (l.filterMap fun j => (q.zip m)[j]?)[i]? = some e →
        ∃ j, l[i]? = some j ∧ q[j]? = some e.1 := by
      intro l hl
      induction l with
      | nil => intro i e h; simp at h
      | cons j l ih =>
        intro i e h
        have hj : j < q.length := hl j (by simp)
        have hz : (q.zip m)[j]? = some (q[j], m[j]'(by omega)) := by
          rw [List.getElem?_eq_getElem (by simp; omega), List.getElem_zip]
        rw [List.filterMap_cons, hz] at h
        cases i with
        | zero => simp at h; exact ⟨j, rfl, by rw [← h]; simp [hj]⟩
        | succ i =>
          obtain ⟨j', h1, h2⟩ := ih (fun j hj => hl j (List.mem_cons_of_mem _ hj)) i e (by simpa using h)
          exact ⟨j', by simpa using h1, h2⟩
    refine forall₂_idx (by rw [hfl, hlen]) fun i r e hr he => ?_
    obtain ⟨j, h1, h2⟩ := hget l hlt i e he
    obtain ⟨r', s, e1, e2, e3⟩ := hpair i j h1
    rw [hr] at e1; rw [h2] at e2
    cases e1; cases e2
    exact e3

theorem progEq_symm (ho : o.Lawful) {p q : List R} (h : o.progEq false p q = true) : o.progEq false q p = true := by
  rw [RuleOps.C17_eq ho (by simp)] at h ⊢
  obtain ⟨q', h1, h2⟩ := h
  have : RuleOps.Corr (fun r s => o.same r s = true) q p := by
    refine (RuleOps.corr_iff_count ho).2 ⟨by rw [h2.length_eq, h1.length_eq], fun x => ?_⟩
    rw [RuleOps.count_forall₂ ho h2, h1.countP_eq]
  exact this

end

/-! ### Sizes -/
section
variable {W : Type}

/-- rules as the measure assumes them: ordinary heads, and subgoals with a functor -/
structure WF (ops : Ops) (r : WRule W) : Prop where
  head : UserHead ops r.head
  user : isBuiltin ops r.head = false
  body : ∀ t, Lit.sub t ∈ r.body → Named t

theorem isBuiltin_len {ops : Ops} {c : Const} : ∀ {as bs : List Tm}, as.length = bs.length →
    isBuiltin ops (.app (.con c :: as)) = isBuiltin ops (.app (.con c :: bs))
  | [], [], _ => rfl
  | [_], [_], _ => rfl
  | [_, _], [_, _], _ => rfl
  | _ :: _ :: _ :: _, _ :: _ :: _ :: _, _ => rfl
  | [], _ :: _, h => by simp at h
  | _ :: _, [], h => by simp at h
  | [_], _ :: _ :: _, h => by simp at h
  | _ :: _ :: _, [_], h => by simp at h
  | [_, _], _ :: _ :: _ :: _, h => by simp at h
  | _ :: _ :: _ :: _, [_, _], h => by simp at h

theorem isBuiltin_sub {ops : Ops} {t : Tm} (h : Named t) (σ : Nat → Tm) : isBuiltin ops (t.sub σ) = isBuiltin ops t := by
  obtain ⟨c, as, rfl⟩ := h
  simp only [Tm.sub, Tm.subL]
  exact isBuiltin_len (by simp [subL_eq_map])

theorem named_sub {t : Tm} (h : Named t) (σ : Nat → Tm) : Named (t.sub σ) := by
  obtain ⟨c, as, rfl⟩ := h
  exact ⟨c, Tm.subL σ as, by simp [Tm.sub, Tm.subL]⟩

theorem minSizeT_named {ops : Ops} {t : Tm} (h : Named t) : minSizeT ops t = if isBuiltin ops t then 0 else 1 := by
  obtain ⟨c, as, rfl⟩ := h; rfl

theorem minSizeT_sub {ops : Ops} {t : Tm} (h : Named t) (σ : Nat → Tm) : minSizeT ops (t.sub σ) = minSizeT ops t := by
  rw [minSizeT_named h, minSizeT_named (named_sub h σ), isBuiltin_sub h]

theorem minSizeT_range (ops : Ops) (t : Tm) : 0 ≤ minSizeT ops t ∧ minSizeT ops t ≤ 1 := by
  unfold minSizeT
  split
  · simp
  · split <;> simp

theorem minSize_nil (ops : Ops) : minSize ops ([] : List (Lit W)) = 0 := rfl
theorem minSize_cons (ops : Ops) (l : Lit W) (b : List (Lit W)) : minSize ops (l :: b) = minSizeL ops l + minSize ops b := by
  simp [minSize]
theorem minSize_append (ops : Ops) (b c : List (Lit W)) : minSize ops (b ++ c) = minSize ops b + minSize ops c := by simp [minSize]
theorem minSize_perm {ops : Ops} {b c : List (Lit W)} (h : b.Perm c) : minSize ops b = minSize ops c := (h.map _).sum_eq
theorem minSize_nonneg (ops : Ops) (b : List (Lit W)) : 0 ≤ minSize ops b := by
  induction b with
  | nil => exact le_refl _
  | cons l b ih =>
    rw [minSize_cons]
    have : 0 ≤ minSizeL ops l := by
      cases l with
      | val c => exact le_refl _
      | sub t => exact (minSizeT_range ops t).1
    omega

theorem minSize_sub {ops : Ops} {b : List (Lit W)} (h : ∀ t, Lit.sub t ∈ b → Named t) (σ : Nat → Tm) :
    minSize ops (b.map (subLit σ)) = minSize ops b := by
  induction b with
  | nil => rfl
  | cons l b ih =>
    rw [List.map_cons, minSize_cons, minSize_cons, ih fun t ht => h t (List.mem_cons_of_mem _ ht)]
    congr 1
    cases l with
    | val c => rfl
    | sub t => exact minSizeT_sub (h t (by simp)) σ

theorem minSize_vals (ops : Ops) (c : List W) : minSize ops (c.map Lit.val) = 0 := by
  induction c with
  | nil => rfl
  | cons a c ih => rw [List.map_cons, minSize_cons, ih]; rfl

/-- what resolving does to the size of the body -/
theorem shape_size [CSemi W] {ops : Ops} {head : Tm} {L R : List (Lit W)} {s t : WRule W} (h : Shape head L R s t)
    (hL : ∀ t, Lit.sub t ∈ L → Named t) (hR : ∀ t, Lit.sub t ∈ R → Named t) (hs : ∀ t, Lit.sub t ∈ s.body → Named t) :
    minSize ops t.body = minSize ops L + minSize ops s.body + minSize ops R := by
  obtain ⟨σ, τ, c, h1, h2⟩ := h
  rw [h2, minSize_append, minSize_append, minSize_append, minSize_vals, minSize_sub hL, minSize_sub hR, minSize_sub hs]
  omega

theorem sub_mem_map {b : List (Lit W)} {σ : Nat → Tm} {t : Tm} (h : Lit.sub t ∈ b.map (subLit σ)) : ∃ u, Lit.sub u ∈ b ∧ t = u.sub σ := by
  obtain ⟨l, hl, e⟩ := List.mem_map.1 h
  cases l with
  | val c => simp [subLit] at e
  | sub u => simp only [subLit, Lit.sub.injEq] at e; exact ⟨u, hl, e.symm⟩

theorem userHead_sub {ops : Ops} {t : Tm} (h : UserHead ops t) (σ : Nat → Tm) : UserHead ops (t.sub σ) := by
  obtain ⟨c, as, rfl, h1, h2⟩ := h
  exact ⟨c, Tm.subL σ as, by simp [Tm.sub, Tm.subL], h1, h2⟩

theorem UserHead.named {ops : Ops} {t : Tm} (h : UserHead ops t) : Named t := by
  obtain ⟨c, as, rfl, _⟩ := h; exact ⟨c, as, rfl⟩

theorem shape_wf [CSemi W] {ops : Ops} {r s t : WRule W} {j : Nat} (h : Shape r.head (r.body.take j) (r.body.drop (j + 1)) s t) (hr : WF ops r)
    (hs : WF ops s) : WF ops t := by
  obtain ⟨σ, τ, c, h1, h2⟩ := h
  refine ⟨h1 ▸ userHead_sub hr.head σ, by rw [h1, isBuiltin_sub (UserHead.named hr.head), hr.user], fun u hu => ?_⟩
  rw [h2] at hu
  simp only [List.mem_append] at hu
  rcases hu with ((hu | hu) | hu) | hu
  · obtain ⟨w, hw, rfl⟩ := sub_mem_map hu; exact named_sub (hr.body w (List.mem_of_mem_take hw)) σ
  · obtain ⟨w, hw, rfl⟩ := sub_mem_map hu; exact named_sub (hs.body w hw) τ
  · obtain ⟨w, hw, rfl⟩ := sub_mem_map hu; exact named_sub (hr.body w (List.mem_of_mem_drop hw)) σ
  · simp at hu

theorem renLit_eq (ρ : Nat → Nat) (l : Lit W) : renLit ρ l = subLit (fun n => .var (ρ n)) l := by cases l <;> rfl

theorem variant_size [CSemi W] {ops : Ops} {r s : WRule W} (h : WVariant r s) (hr : ∀ t, Lit.sub t ∈ r.body → Named t) :
    minSize ops s.body = minSize ops r.body := by
  obtain ⟨ρ, _, _, h3⟩ := h
  have : r.body.map (renLit ρ) = r.body.map (subLit fun n => .var (ρ n)) := List.map_congr_left fun l _ => renLit_eq ρ l
  rw [minSize_perm h3, this, minSize_sub hr]

theorem variant_wf [CSemi W] {ops : Ops} {r s : WRule W} (h : WVariant r s) (hr : WF ops r) : WF ops s := by
  obtain ⟨ρ, _, h2, h3⟩ := h
  refine ⟨h2 ▸ userHead_sub hr.head _, by rw [h2, isBuiltin_sub (UserHead.named hr.head), hr.user], fun t ht => ?_⟩
  have ht := h3.mem_iff.1 ht
  have : r.body.map (renLit ρ) = r.body.map (subLit fun n => .var (ρ n)) := List.map_congr_left fun l _ => renLit_eq ρ l
  rw [this] at ht
  obtain ⟨u, hu, rfl⟩ := sub_mem_map ht
  exact named_sub (hr.body u hu) _

theorem variant_map [CSemi W] {W' : Type} [CSemi W'] (φ : W → W') {r s : WRule W} (h : WVariant r s) : WVariant (mapRule φ r) (mapRule φ s) := by
  obtain ⟨ρ, h1, h2, h3⟩ := h
  refine ⟨ρ, by rwa [Unfold.rvars_map], h2, ?_⟩
  have := h3.map (mapLit φ)
  simp only [mapRule, List.map_map] at this ⊢
  rwa [show (renLit ρ ∘ mapLit φ : Lit W → Lit W') = mapLit φ ∘ renLit ρ from funext fun l => by cases l <;> rfl]

/-! #### `Rule.folds_by` leaves what the definition does not cover -/

theorem cover_size {ops : Ops} {f : Nat} {s s' : Heap} {x y : Tm} (hx : Named x ∨ ∃ c, x = .con c)
    (h : Subst.coverF f s x y = some (some s')) : minSizeT ops y = minSizeT ops x := by
  rcases hx with ⟨c, as, rfl⟩ | ⟨c, rfl⟩
  · rw [Subst.coverF.eq_def] at h
    simp only at h
    split at h
    · rename_i h1; rw [← h1]
    · split at h
      · rename_i bs _
        split at h
        · rename_i hl
          cases bs with
          | nil => simp at hl
          | cons b bs =>
            simp only [Subst.coverLF] at h
            split at h
            · cases h
            · cases h
            · rename_i s1 h1
              simp only [Subst.coverF] at h1
              split at h1
              · rename_i hb
                subst hb
                rw [minSizeT_named ⟨c, bs, rfl⟩, minSizeT_named ⟨c, as, rfl⟩, isBuiltin_len (as := bs) (bs := as) (by simp at hl; omega)]
              · cases h1
        · cases h
      · cases h
  · simp only [Subst.coverF] at h
    split at h
    · rename_i h1; rw [← h1]
    · cases h

theorem covers_size {ops : Ops} {f : Nat} {ord : List Nat → List Nat} (hord : ∀ l, (ord l).Perm l) {ys : List Tm} :
    ∀ (xs : List Tm) (i : Nat) (js : List Nat) (s : Heap) (rs : List Product.Res), (∀ x ∈ xs, Named x ∨ ∃ c, x = .con c) → js.Nodup →
      Product.coversF f ord ys xs i js (some s) = some rs → ∀ r ∈ rs, ∃ al : List Nat, (al ++ r.R).Perm js ∧
        (al.map fun j => (ys[j]?.map (minSizeT ops)).getD 0).sum = (xs.map (minSizeT ops)).sum := by
  intro xs
  induction xs with
  | nil =>
    intro i js s rs hx hj e r hr
    simp only [Product.coversF, Option.some.injEq] at e
    subst e
    simp only [List.mem_singleton] at hr
    subst hr
    exact ⟨[], by simp, by simp⟩
  | cons x xs ih =>
    intro i js s rs hx hj e r hr
    simp only [Product.coversF] at e
    split at e
    · cases e; simp at hr
    · obtain ⟨rss, h2, rfl⟩ := collect_spec e
      obtain ⟨rs', hrs, hr⟩ := List.mem_flatten.1 hr
      obtain ⟨n, hn, hrs⟩ := List.mem_iff_getElem.1 hrs
      have hlen := h2.length_eq
      have ej := forall₂_at h2 n _ _ (List.getElem?_eq_getElem (by omega)) (List.getElem?_eq_getElem hn)
      have hjm : (ord js)[n]'(by omega) ∈ js := (hord js).mem_iff.1 (List.getElem_mem _)
      generalize (ord js)[n]'(by omega) = j at ej hjm
      rw [hrs] at ej
      split at ej
      · cases ej
      · rename_i y hy
        split at ej
        · cases ej
        · rename_i s' hs'
          rw [Option.map_eq_some_iff] at ej
          obtain ⟨rs1, e1, rfl⟩ := ej
          obtain ⟨r1, hr1, rfl⟩ := List.mem_map.1 hr
          cases s' with
          | none => simp only [Product.coversF, Option.some.injEq] at e1; subst e1; simp at hr1
          | some s' =>
            obtain ⟨al, h3, h4⟩ := ih (i + 1) (js.erase j) s' rs1 (fun x hx' => hx x (List.mem_cons_of_mem _ hx')) (hj.erase j) e1 r1 hr1
            refine ⟨j :: al, ?_, ?_⟩
            · exact (h3.cons j).trans (List.perm_cons_erase hjm).symm
            · rw [List.map_cons, List.sum_cons, List.map_cons, List.sum_cons, h4, hy]
              simp only [Option.map_some, Option.getD_some]
              rw [cover_size (hx x (by simp)) hs']

theorem minSize_litTm (ops : Ops) (code : W → Const) (b : List (Lit W)) : ((b.map (litTm code)).map (minSizeT ops)).sum = minSize ops b := by
  rw [List.map_map]
  unfold minSize
  congr 1
  exact List.map_congr_left fun l _ => by cases l <;> rfl

theorem minSize_picked {ops : Ops} {code : W → Const} {b : List (Lit W)} {R : List Nat} {rest : List (Lit W)}
    (h : List.Forall₂ (fun (k : Nat) l => b[k]? = some l) R rest) :
    minSize ops rest = (R.map fun j => ((b.map (litTm code))[j]?.map (minSizeT ops)).getD 0).sum := by
  induction h with
  | nil => rfl
  | @cons k l R rest h _ ih =>
    rw [minSize_cons, List.map_cons, List.sum_cons, ih]
    congr 1
    rw [List.getElem?_map, h]
    cases l <;> rfl

theorem ruleFolds_size {ops : Ops} {f : Nat} {ord : List Nat → List Nat} (hord : ∀ l, (ord l).Perm l) {code : W → Const} {p r : WRule W}
    (hr : ∀ t, Lit.sub t ∈ r.body → Named t) {l : List (Folded W)} (h : ruleFolds f ord code p r = some l) {t : Folded W} (ht : t ∈ l) :
    minSize ops t.rest = minSize ops p.body - minSize ops r.body := by
  unfold ruleFolds at h
  split at h
  · cases h
  · rename_i cs hcs
    obtain ⟨rss, h2, rfl⟩ := collect_spec h
    obtain ⟨l', hl', ht⟩ := List.mem_flatten.1 ht
    obtain ⟨n, hn, hrs⟩ := List.mem_iff_getElem.1 hl'
    have hlen := h2.length_eq
    have ej := forall₂_at h2 n _ _ (List.getElem?_eq_getElem (by omega)) (List.getElem?_eq_getElem hn)
    have hcm : cs[n]'(by omega) ∈ cs := List.getElem_mem _
    generalize cs[n]'(by omega) = c at ej hcm
    rw [hrs] at ej
    rw [Option.map_eq_some_iff] at ej
    obtain ⟨a, ha, rfl⟩ := ej
    rw [Option.mem_toList] at ht
    subst ht
    unfold foldedBy at ha
    split at ha
    · rename_i head body rest e1 e2 e3
      simp only [Option.some.injEq] at ha
      split at ha
      · cases ha
        simp only
        obtain ⟨al, h3, h4⟩ := covers_size (ops := ops) hord (ys := p.body.map (litTm code)) _ _ _ _ _ (fun x hx => by
          obtain ⟨l, hl, rfl⟩ := List.mem_map.1 hx
          cases l with
          | val c => exact .inr ⟨_, rfl⟩
          | sub t => exact .inl (hr t hl)) List.nodup_range hcs c hcm
        rw [minSize_litTm] at h4
        have hrest := minSize_picked (ops := ops) (code := code) (forall₂_of_allSome e3)
        have hall : ((List.range (p.body.map (litTm code)).length).map fun j => ((p.body.map (litTm code))[j]?.map (minSizeT ops)).getD 0).sum = minSize ops p.body := by
          rw [← minSize_litTm ops code]
          congr 1
          refine List.ext_getElem? fun i => ?_
          by_cases hi : i < (p.body.map (litTm code)).length
          · rw [List.getElem?_map, List.getElem?_range hi, List.getElem?_map]
            simp only [Option.map_some]
            rw [List.getElem?_eq_getElem hi]; rfl
          · rw [List.getElem?_eq_none (by simpa using hi), List.getElem?_eq_none (by simpa using hi)]
        have := (h3.map fun j => ((p.body.map (litTm code))[j]?.map (minSizeT ops)).getD 0).sum_eq
        rw [List.map_append, List.sum_append, h4, ← hrest, hall] at this
        omega
      · cases ha
    · cases ha

end

/-! ### Weighted sums -/
section
variable {W : Type} [OSemi W]

theorem Tw_perm {ι W' : Type} [CSemi W'] {φ : W → W'} {w : ι → W'} {l l' : List (WRule W × ι)} (h : l.Perm l') (v : GTm → W') (x : GTm) :
    Tw φ w l v x = Tw φ w l' v x := (h.map _).sum_eq

theorem Tw_scale {ι : Type} (c : ℤ) (w : ι → ℤ) (l : List (WRule W × ι)) (V : GTm → Gr W) (x : GTm) :
    Tw lift (fun i => mono (c + w i)) l V x = mono c * Tw lift (fun i => mono (w i)) l V x := by
  induction l with
  | nil => rw [Tw_nil, Tw_nil, mul_zero]
  | cons t l ih => rw [Tw_cons, Tw_cons, ih, Gr.mono_add]; ring

theorem Tw_zipIdx {ι W' : Type} [CSemi W'] {φ : W → W'} {w : Nat → W'} {w' : ι → W'} {m : List ι} {l : List (WRule W)}
    (hm : m.length = l.length) (h : ∀ (i : Nat) I, m[i]? = some I → w i = w' I) (v : GTm → W') (x : GTm) :
    Tw φ w l.zipIdx v x = Tw φ w' (l.zip m) v x := by
  have : ∀ (l : List (WRule W)) (m : List ι) (k : Nat), m.length = l.length → (∀ (i : Nat) I, m[i]? = some I → w (k + i) = w' I) →
      Tw φ w (l.zipIdx k) v x = Tw φ w' (l.zip m) v x := by
    intro l
    induction l with
    | nil => intro m k _ _; rfl
    | cons r l ih =>
      intro m k hm h
      cases m with
      | nil => simp at hm
      | cons I m =>
        rw [List.zipIdx_cons, List.zip_cons_cons, Tw_cons, Tw_cons, ih m (k + 1) (by simpa using hm) (fun i I hi => by
          rw [Nat.add_assoc, Nat.add_comm 1]; exact h (i + 1) I (by simpa using hi)), ← h 0 I rfl, Nat.add_zero]
  exact this l m 0 hm (by simpa using h)

theorem Tw_zip_new {ι κ W' : Type} [CSemi W'] {φ : W → W'} {w : κ → W'} {w' : ι → W'} {l : List (WRule W × κ)} {m : List ι}
    (h : List.Forall₂ (fun e I => w' I = w e.2) l m) (v : GTm → W') (x : GTm) : Tw φ w' ((l.map Prod.fst).zip m) v x = Tw φ w l v x := by
  induction h with
  | nil => rfl
  | cons h _ ih => rw [List.map_cons, List.zip_cons_cons, Tw_cons, Tw_cons, ih, h]

theorem late_forall₂ {α β : Type} {f : α → Gr W} {g : β → Gr W} {l : List α} {m : List β} (h : List.Forall₂ (fun a b => Late (f a) (g b)) l m) :
    Late (l.map f).sum (m.map g).sum := by
  induction h with
  | nil => exact .refl _
  | cons h _ ih =>
    rw [List.map_cons, List.sum_cons, List.map_cons, List.sum_cons]
    exact h.add ih

theorem late_contribAt {head : Tm} {L : List (Lit (Gr W))} {q : Tm} {R : List (Lit (Gr W))} {V u u' : GTm → Gr W}
    (h : ∀ θ, Late (u (gsub θ q)) (u' (gsub θ q))) (x : GTm) : Late (contribAt head L q R V u x) (contribAt head L q R V u' x) := by
  unfold contribAt
  refine Gr.late_isum fun a => ?_
  split
  · exact ((Late.refl _).mul (h _)).mul (.refl _)
  · exact .refl _

theorem gcontrib_variant {r s : WRule W} (h : WVariant r s) (V : GTm → Gr W) (x : GTm) :
    contrib (mapRule lift s) V x = contrib (mapRule lift r) V x := Fold.contrib_variant (variant_map lift h) V x

theorem gcontrib_split {r : WRule W} {j : Nat} {q : Tm} (h : r.body[j]? = some (.sub q)) (V : GTm → Gr W) (x : GTm) :
    contrib (mapRule lift r) V x =
      contribAt r.head ((r.body.take j).map (mapLit lift)) q ((r.body.drop (j + 1)).map (mapLit lift)) V V x := by
  classical
  rw [contribAt_self]
  have : mapRule lift r = ⟨r.head, (r.body.take j).map (mapLit lift) ++ .sub q :: (r.body.drop (j + 1)).map (mapLit lift)⟩ := by
    conv_lhs => rw [mapRule, split_body h]
    simp [mapLit]
  rw [this]

theorem minOf_mem {l : List Int} {m : Int} (h : minOf l = some m) : m ∈ l ∧ ∀ v ∈ l, m ≤ v := by
  have key : ∀ (vs : List Int) (a : Int), let z := vs.foldl (fun m v => if v < m then v else m) a
      (z = a ∨ z ∈ vs) ∧ z ≤ a ∧ ∀ v ∈ vs, z ≤ v := by
    intro vs
    induction vs with
    | nil => intro a; simp
    | cons v vs ih =>
      intro a
      simp only [List.foldl_cons]
      obtain ⟨h1, h2, h3⟩ := ih (if v < a then v else a)
      split at h1 <;> rename_i hc
      · rw [if_pos hc] at h2 h3 ⊢
        refine ⟨.inr (by simpa using h1), by omega, fun u hu => ?_⟩
        rcases List.mem_cons.1 hu with rfl | hu
        · exact h2
        · exact h3 u hu
      · rw [if_neg hc] at h2 h3 ⊢
        refine ⟨by rcases h1 with h1 | h1 <;> simp [h1], h2, fun u hu => ?_⟩
        rcases List.mem_cons.1 hu with rfl | hu
        · omega
        · exact h3 u hu
  cases l with
  | nil => simp [minOf] at h
  | cons v vs =>
    simp only [minOf, Option.some.injEq] at h
    obtain ⟨h1, h2, h3⟩ := key vs v
    subst h
    refine ⟨by simpa using h1, fun u hu => ?_⟩
    rcases List.mem_cons.1 hu with rfl | hu
    · exact h2
    · exact h3 u hu

theorem maxOf_le {l : List Int} {m : Int} (h : maxOf l = some m) : ∀ v ∈ l, v ≤ m := by
  have key : ∀ (vs : List Int) (a : Int), let z := vs.foldl (fun m v => if v > m then v else m) a
      a ≤ z ∧ ∀ v ∈ vs, v ≤ z := by
    intro vs
    induction vs with
    | nil => intro a; simp
    | cons v vs ih =>
      intro a
      simp only [List.foldl_cons]
      obtain ⟨h2, h3⟩ := ih (if v > a then v else a)
      have hm : a ≤ (if v > a then v else a) ∧ v ≤ (if v > a then v else a) := by split <;> omega
      refine ⟨le_trans hm.1 h2, fun u hu => ?_⟩
      rcases List.mem_cons.1 hu with rfl | hu
      · exact le_trans hm.2 h2
      · exact h3 u hu
  cases l with
  | nil => simp [maxOf] at h
  | cons v vs =>
    simp only [maxOf, Option.some.injEq] at h
    obtain ⟨h2, h3⟩ := key vs v
    subst h
    intro u hu
    rcases List.mem_cons.1 hu with rfl | hu
    · exact h2
    · exact h3 u hu

theorem minus_subset {α : Type} {l : List α} {S : Finset Nat} : ∀ x ∈ minus l S, x ∈ l := by
  unfold minus
  generalize S.sort (· ≥ ·) = is
  induction is generalizing l with
  | nil => intro x hx; exact hx
  | cons i is ih => intro x hx; exact List.mem_of_mem_eraseIdx (ih x hx)

/-! ### Spec: what is assumed of a sequence of steps -/

variable [DecidableEq W] {S' : Type} [DecidableEq S']

/-- what does not change during a sequence: the rule comparison, the iteration order of sets, the operators, the
encoding of values, the choice among the results of `folds_by`, the kind of measure, the values of the unknowns,
and the rule that each unknown stands for; `n` is the number of unknowns -/
structure Env (W S' : Type) where
  o : RuleOps (WRule W) S'
  ord : List Nat → List Nat
  ops : Ops
  code : W → Const
  pick : List (Folded W) → Option (Folded W)
  sym : Bool
  a : Nat → Int
  B : Nat → WRule W
  n : Nat

namespace Env
variable (E : Env W S')

/-- the value of unknown number `i` -/
def val (i : Nat) : Int := if E.sym then E.a i else 1

/-- the definitions in the scope `sc` are all there is for `q` -/
def Complete (sc : List Nat) (q : Tm) : Prop := ∀ i < E.n, i ∉ sc → ∀ θ φ, gsub θ (E.B i).head ≠ gsub φ q

structure Fair (E : Env W S') : Prop where
  same : Faithful E.o
  order : ∀ l, (E.ord l).Perm l
  picks : ∀ l t, E.pick l = some t → t ∈ l
  rules : ∀ i < E.n, WF E.ops (E.B i)

/-- The measured programs that a sequence of steps can reach, in any order and with any caching, together with the unknowns
that stand for the rules they were made from. -/
inductive Reach (root : Prog W) : Rec W → List Nat → Prop
  | root (id : Nat) (hn : root.rules.length ≤ E.n) (hB : ∀ i r, root.rules[i]? = some r → E.B i = r) :
      Reach root (addRef E.sym E.a id root) (List.range root.rules.length)
  | define {P R sc} {id b : Nat} {news : List (WRule W)} (hP : Reach root P sc) (h : defineM E.sym E.a b id P news = some R)
      (hn : b + news.length ≤ E.n) (hB : ∀ i r, news[i]? = some r → E.B (b + i) = r) (hb : ∀ i < news.length, b + i ∉ sc) :
      Reach root R (sc ++ (List.range news.length).map (b + ·))
  | unfold {P D R sc scD r q} {f k id i j : Nat} (hP : Reach root P sc) (hD : Reach root D scD)
      (h : unfoldM f E.ops infty k id P D i j = some R) (pre : Pre E.ops k P.prog D.prog i j r q) (hq : UserHead E.ops q)
      (hu : isBuiltin E.ops q = false) (nd : P.prog.rules.Nodup) (hc : E.Complete scD q) : Reach root R sc
  | fold {P D R sc scD r q} {f k id j : Nat} {S : Finset Nat} (hP : Reach root P sc) (hD : Reach root D scD)
      (h : foldM f E.o E.ord E.ops infty E.code E.pick k id P D r S j = some R)
      (pre : Pre E.ops k (fold P.prog r S) D.prog 0 j r q) (hq : UserHead E.ops q) (hu : isBuiltin E.ops q = false) (hr : WF E.ops r)
      (nd : P.prog.rules.Pairwise fun r s => E.o.same r s = false) (hc : E.Complete scD q) : Reach root R sc
  | cached {P R sc p lin} (hP : Reach root P sc) (he : E.o.progEq false p.rules P.prog.rules = true) (hi : p.inputs = P.prog.inputs)
      (h : alignM E.o E.ord P p lin = some R) : Reach root R sc

/-- the rules that the unknowns in `sc` stand for -/
noncomputable def ref (sc : List Nat) (V : GTm → Gr W) (x : GTm) : Gr W := Tw lift (fun i => mono (E.val i)) (sc.map fun i => (E.B i, i)) V x

/-- the size of data -/
def sz (x : GTm) : ℤ := minSizeT E.ops x.1

/-- what a measured program says about the graded solution `V` -/
structure Inv (root : Prog W) (V : GTm → Gr W) (R : Rec W) (sc : List Nat) : Prop where
  inputs : R.prog.inputs = root.inputs
  len : R.m.length = R.prog.rules.length
  wf : ∀ r ∈ R.prog.rules, WF E.ops r
  nodup : sc.Nodup
  lt : ∀ i ∈ sc, i < E.n
  hi : ∀ x, Late (Tw lift (fun I : Ival => mono I.hi) (R.prog.rules.zip R.m) V x) (E.ref sc V x)
  lo : ∀ x, Late (E.ref sc V x) (Tw lift (fun I : Ival => mono I.lo) (R.prog.rules.zip R.m) V x)
  grow : ∀ t ∈ R.prog.rules.zip R.m, 2 ≤ t.2.lo + max 1 (minSize E.ops t.1.body)

variable {E}

theorem ok_append {a b : List Bool} : (a ++ b).all id = true ↔ a.all id = true ∧ b.all id = true := by simp [List.all_append]

theorem newVars_val (sym : Bool) (a : Nat → Int) (b : Nat) (rs : List (WRule W)) :
    (newVars sym a b rs).1 = (List.range rs.length).map fun i => (⟨if sym then a (b + i) else 1, if sym then a (b + i) else 1⟩ : Ival) := by
  simp only [newVars, List.map_map]
  refine List.map_congr_left fun i _ => ?_
  cases sym <;> simp [newVar]

theorem newVars_pos {sym : Bool} {a : Nat → Int} {b : Nat} {rs : List (WRule W)} (h : (newVars sym a b rs).2.all id = true) :
    ∀ i < rs.length, 1 ≤ (if sym then a (b + i) else 1) := by
  intro i hi
  cases sym with
  | false => simp
  | true =>
    simp only [newVars, newVar, if_true, List.all_eq_true, List.mem_flatMap, List.mem_map, List.mem_range] at h
    have := h (decide (a (b + i) > 0)) ⟨_, ⟨i, hi, rfl⟩, by simp⟩
    simp at this
    simp; omega

/-- the safety constraints include that the unknowns in scope are positive -/
theorem pos_of_ok {root : Prog W} {R : Rec W} {sc : List Nat} (h : E.Reach root R sc) (ok : R.ok = true) : ∀ i ∈ sc, 1 ≤ E.val i := by
  induction h with
  | root id hn hB =>
    intro i hi
    have := newVars_pos (b := 0) ok i (List.mem_range.1 hi)
    simpa [val] using this
  | @define P R sc id b news hP h hn hB hb ih =>
    unfold defineM at h
    split at h
    · cases h
    · cases h
      simp only [Rec.ok, ok_append] at ok
      intro i hi
      rcases List.mem_append.1 hi with hi | hi
      · exact ih ok.1 i hi
      · obtain ⟨t, ht, rfl⟩ := List.mem_map.1 hi
        exact newVars_pos ok.2 t (List.mem_range.1 ht)
  | @unfold P D R sc scD r q f k id i j hP hD h pre hq hu nd hc ih _ =>
    unfold unfoldM at h
    split at h
    · simp only at h
      split at h
      · cases h
      · cases h; simp [Rec.ok, zeroMeasure] at ok
      · split at h
        · split at h
          · cases h
          · cases h
            simp only [Rec.ok, ok_append] at ok
            exact ih ok.1.1
        · cases h
    · cases h
  | @fold P D R sc scD r q f k id j S hP hD h pre hq hu hr nd hc ih _ =>
    unfold foldM at h
    simp only at h
    split at h
    · split at h
      · cases h
      · split at h
        · cases h
        · cases h; simp [Rec.ok, zeroMeasure] at ok
        · split at h
          · cases h
          · split at h
            · cases h
            · split at h
              · cases h
                simp only [Rec.ok, ok_append] at ok
                exact ih ok.1.1
              · cases h
    · cases h
  | cached hP he hi h ih =>
    unfold alignM at h
    simp only at h
    split at h
    · cases h
    · cases h; exact ih ok

variable {root : Prog W} {V : GTm → Gr W} {d : GTm → W}

theorem ref_perm {sc sc' : List Nat} (h : sc.Perm sc') (x : GTm) : E.ref sc V x = E.ref sc' V x := Tw_perm (h.map _) V x

theorem zip_base {l : List (WRule W)} {b : Nat} {val : Nat → Int} {B : Nat → WRule W} (hB : ∀ i r, l[i]? = some r → B (b + i) = r) (g : Ival → Int)
    (hg : ∀ v : Int, g ⟨v, v⟩ = v) (x : GTm) :
    Tw lift (fun I : Ival => mono (g I)) (l.zip ((List.range l.length).map fun i => (⟨val (b + i), val (b + i)⟩ : Ival))) V x =
      Tw lift (fun i => mono (val i)) (((List.range l.length).map (b + ·)).map fun i => (B i, i)) V x := by
  have e : l = (List.range l.length).map fun i => B (b + i) := by
    refine List.ext_getElem? fun i => ?_
    by_cases hi : i < l.length
    · rw [List.getElem?_map, List.getElem?_range hi, List.getElem?_eq_getElem hi, Option.map_some, hB i _ (List.getElem?_eq_getElem hi)]
    · rw [List.getElem?_eq_none (by simpa using hi), List.getElem?_eq_none (by simpa using hi)]
  unfold Tw
  conv_lhs => rw [show l.zip ((List.range l.length).map fun i => (⟨val (b + i), val (b + i)⟩ : Ival)) =
    ((List.range l.length).map fun i => B (b + i)).zip ((List.range l.length).map fun i => (⟨val (b + i), val (b + i)⟩ : Ival)) by rw [← e]]
  rw [List.zip_map', List.map_map, List.map_map, List.map_map]
  congr 1
  refine List.map_congr_left fun i _ => ?_
  simp only [Function.comp, hg]

theorem zip_append_eq {α β : Type} {l l' : List α} {m m' : List β} (h : m.length = l.length) : (l ++ l').zip (m ++ m') = l.zip m ++ l'.zip m' :=
  List.zip_append h.symm

theorem root_inv (hE : E.Fair) (id : Nat) (hn : root.rules.length ≤ E.n) (hB : ∀ i r, root.rules[i]? = some r → E.B i = r)
    (ok : (addRef E.sym E.a id root).ok = true) : E.Inv root V (addRef E.sym E.a id root) (List.range root.rules.length) := by
  have hm : (addRef E.sym E.a id root).m = (List.range root.rules.length).map fun i => (⟨E.val (0 + i), E.val (0 + i)⟩ : Ival) :=
    newVars_val _ _ _ _
  have hsum : ∀ (g : Ival → Int), (∀ v : Int, g ⟨v, v⟩ = v) → ∀ x, Tw lift (fun I : Ival => mono (g I))
      (root.rules.zip ((List.range root.rules.length).map fun i => (⟨E.val (0 + i), E.val (0 + i)⟩ : Ival))) V x = E.ref (List.range root.rules.length) V x := by
    intro g hg x
    rw [zip_base (val := E.val) (B := E.B) (fun i r h => by rw [Nat.zero_add]; exact hB i r h) g hg x]
    unfold ref
    congr 2
    simp
  refine ⟨rfl, by rw [hm]; simp [addRef], fun r hr => ?_, List.nodup_range, fun i hi => lt_of_lt_of_le (List.mem_range.1 hi) hn, fun x => ?_, fun x => ?_, fun t ht => ?_⟩
  · obtain ⟨i, hi, rfl⟩ := List.mem_iff_getElem.1 hr
    have := hB i _ (List.getElem?_eq_getElem hi)
    have h' := hE.rules i (lt_of_lt_of_le hi hn)
    rw [this] at h'
    exact h'
  · rw [hm]; exact .of_eq (hsum Ival.hi (fun _ => rfl) x)
  · rw [hm]; exact .of_eq (hsum Ival.lo (fun _ => rfl) x).symm
  · rw [hm] at ht
    have h2 := List.of_mem_zip (a := t.1) (b := t.2) ht
    obtain ⟨i, hi, e⟩ := List.mem_map.1 h2.2
    have := newVars_pos (b := 0) ok i (List.mem_range.1 hi)
    have hv : t.2.lo = E.val (0 + i) := by rw [← e]
    have hp : 1 ≤ E.val (0 + i) := this
    have := le_max_left 1 (minSize E.ops t.1.body)
    omega

theorem define_inv (hE : E.Fair) {P R : Rec W} {sc : List Nat} {id b : Nat} {news : List (WRule W)} (hP : E.Inv root V P sc)
    (h : defineM E.sym E.a b id P news = some R) (hn : b + news.length ≤ E.n) (hB : ∀ i r, news[i]? = some r → E.B (b + i) = r)
    (hb : ∀ i < news.length, b + i ∉ sc) (ok : R.ok = true) : E.Inv root V R (sc ++ (List.range news.length).map (b + ·)) := by
  unfold defineM at h
  split at h
  · cases h
  · cases h
    simp only [Rec.ok, ok_append] at ok
    have hm : (newVars E.sym E.a b news).1 = (List.range news.length).map fun i => (⟨E.val (b + i), E.val (b + i)⟩ : Ival) := newVars_val _ _ _ _
    have hpos := newVars_pos ok.2
    have href : ∀ x, E.ref (sc ++ (List.range news.length).map (b + ·)) V x = E.ref sc V x + E.ref ((List.range news.length).map (b + ·)) V x := by
      intro x; unfold ref; rw [List.map_append, Tw_append]
    refine ⟨hP.inputs, ?_, fun r hr => ?_, ?_, fun i hi => ?_, fun x => ?_, fun x => ?_, fun t ht => ?_⟩
    · simp [hP.len, hm]
    · rcases List.mem_append.1 hr with hr | hr
      · exact hP.wf r hr
      · obtain ⟨i, hi, rfl⟩ := List.mem_iff_getElem.1 hr
        have := hB i _ (List.getElem?_eq_getElem hi)
        have h' := hE.rules (b + i) (by omega)
        rw [this] at h'
        exact h'
    · refine List.nodup_append.2 ⟨hP.nodup, List.nodup_range.map fun i j h => by simpa using h, fun i hi j hj e => ?_⟩
      obtain ⟨t, ht, rfl⟩ := List.mem_map.1 hj
      exact hb t (List.mem_range.1 ht) (e ▸ hi)
    · rcases List.mem_append.1 hi with hi | hi
      · exact hP.lt i hi
      · obtain ⟨t, ht, rfl⟩ := List.mem_map.1 hi
        have := List.mem_range.1 ht
        omega
    · simp only [hm]
      rw [zip_append_eq hP.len, Tw_append, href]
      exact (hP.hi x).add (.of_eq (zip_base (val := E.val) (B := E.B) hB Ival.hi (fun _ => rfl) x))
    · simp only [hm]
      rw [zip_append_eq hP.len, Tw_append, href]
      exact (hP.lo x).add (.of_eq (zip_base (val := E.val) (B := E.B) hB Ival.lo (fun _ => rfl) x).symm)
    · simp only [hm] at ht
      rw [zip_append_eq hP.len] at ht
      rcases List.mem_append.1 ht with ht | ht
      · exact hP.grow t ht
      · have h2 := List.of_mem_zip (a := t.1) (b := t.2) ht
        obtain ⟨i, hi, e⟩ := List.mem_map.1 h2.2
        have hp : 1 ≤ E.val (b + i) := hpos i (List.mem_range.1 hi)
        have hv : t.2.lo = E.val (b + i) := by rw [← e]
        have := le_max_left 1 (minSize E.ops t.1.body)
        omega

/-- the graded solution of the rules of all unknowns -/
structure Solves (E : Env W S') (d : GTm → W) (V : GTm → Gr W) : Prop where
  eq : ∀ x, V x = at' (E.sz x) (d x) + E.ref (List.range E.n) V x
  supp : ∀ x, Supp (E.sz x) (V x)

theorem contrib_miss {r : WRule W} {x : GTm} (h : ∀ θ, gsub θ r.head ≠ x) : contrib (mapRule lift r) V x = 0 := contrib_zero h

/-- the subgoal has the value given by the definitions in scope -/
theorem defs_value (hV : Solves E d V) (hd : Data E.ops root.inputs d) {sc : List Nat} (nd : sc.Nodup) (lt : ∀ i ∈ sc, i < E.n) {q : Tm}
    (hq : UserHead E.ops q) (hin : ∀ t ∈ root.inputs, ∀ θ φ, gsub θ t ≠ gsub φ q) (hc : E.Complete sc q) (φ : Nat → GTm) :
    V (gsub φ q) = E.ref sc V (gsub φ q) := by
  have hd0 : d (gsub φ q) = 0 := by
    have := hd (gsub φ q)
    have hb : bval (W := W) E.ops (gsub φ q).1 = none := by
      obtain ⟨c, as, rfl, h1, h2⟩ := hq
      simp only [gsub, Tm.sub, Tm.subL]
      unfold bval
      split
      · rename_i heq
        simp only [Tm.app.injEq, List.cons.injEq, Tm.con.injEq] at heq
        rw [← heq.1, h1]
        simp [h2]
      · rfl
    rw [hb] at this
    exact this fun t ht θ => hin t ht θ φ
  rw [hV.eq, hd0]
  have h0 : (at' (E.sz (gsub φ q)) 0 : Gr W) = 0 := by
    funext n; show (if n = _ then (0 : W) else 0) = 0; simp
  rw [h0, zero_add]
  have hp : (List.range E.n).Perm (sc ++ (List.range E.n).filter (· ∉ sc)) := by
    have h1 : ((List.range E.n).filter (· ∈ sc)).Perm sc := by
      refine (List.perm_ext_iff_of_nodup (List.nodup_range.filter _) nd).2 fun i => ?_
      simp only [List.mem_filter, List.mem_range, decide_eq_true_eq]
      exact ⟨fun h => h.2, fun h => ⟨lt i h, h⟩⟩
    refine ((List.filter_append_perm (fun i => decide (i ∈ sc)) (List.range E.n)).symm.trans ?_)
    refine h1.append (.of_eq (List.filter_congr fun i _ => by simp))
  rw [ref_perm hp]
  unfold ref
  rw [List.map_append, Tw_append]
  have : ∀ l : List Nat, (∀ i ∈ l, i < E.n ∧ i ∉ sc) → Tw lift (fun i => mono (E.val i)) (l.map fun i => (E.B i, i)) V (gsub φ q) = 0 := by
    intro l hl
    induction l with
    | nil => rfl
    | cons i l ih =>
      rw [List.map_cons, Tw_cons, ih fun i hi => hl i (List.mem_cons_of_mem _ hi), contrib_miss fun θ => hc i (hl i (by simp)).1 (hl i (by simp)).2 θ φ,
        mul_zero, add_zero]
  rw [this ((List.range E.n).filter (· ∉ sc)) fun i hi => by simpa using hi, add_zero]

/-- the measures copied from the parent are those of the same rules -/
theorem copied_zip {P : Rec W} (hl : P.m.length = P.prog.rules.length) (nd : P.prog.rules.Nodup) {q' : List (WRule W × Ival)}
    (hq : ∀ e ∈ q', e ∈ P.prog.rules.zip P.m) {rest : List Ival} (h : copied P (q'.map Prod.fst) = some rest) : rest = q'.map Prod.snd := by
  unfold copied at h
  have := forall₂_of_allSome h
  clear h
  induction q' generalizing rest with
  | nil => cases this; rfl
  | cons e q' ih =>
    cases this with
    | cons h1 h2 =>
      rw [List.map_cons, ih (fun e he => hq e (List.mem_cons_of_mem _ he)) h2]
      congr 1
      obtain ⟨i, hi, he⟩ := List.mem_iff_getElem.1 (hq e (by simp))
      rw [List.getElem_zip] at he
      simp only [List.length_zip] at hi
      have e1 : e.1 = P.prog.rules[i]'(by omega) := by rw [← he]
      have e2 : e.2 = P.m[i]'(by omega) := by rw [← he]
      rw [e1, nd.idxOf_getElem, List.getElem?_eq_getElem (by omega), Option.some.injEq] at h1
      rw [← h1, e2]

theorem zip_fst_snd {α β : Type} (l : List (α × β)) : (l.map Prod.fst).zip (l.map Prod.snd) = l := by
  induction l with
  | nil => rfl
  | cons a l ih => simp [ih]

/-! ### The steps -/

/-- sum over the numbered rules that an unfolding makes -/
theorem new_weights {D : Rec W} (hD : D.m.length = D.prog.rules.length) (c : ℤ) (g : Ival → ℤ) (x : GTm) :
    Tw lift (fun i : Nat => ((D.m[i]?).map fun I => (mono (c + g I) : Gr W)).getD 0) D.prog.rules.zipIdx V x =
      mono c * Tw lift (fun I : Ival => mono (g I)) (D.prog.rules.zip D.m) V x := by
  rw [← Tw_scale]
  exact Tw_zipIdx hD (fun i I h => by rw [h]; rfl) V x

theorem unfold_inv {P D R : Rec W} {sc scD : List Nat} {r : WRule W} {q : Tm} {f k id i j : Nat} (hV : Solves E d V)
    (hd : Data E.ops root.inputs d) (hP : E.Inv root V P sc) (hD : E.Inv root V D scD)
    (h : unfoldM f E.ops infty k id P D i j = some R) (pre : Pre E.ops k P.prog D.prog i j r q) (hq : UserHead E.ops q)
    (hu : isBuiltin E.ops q = false) (nd : P.prog.rules.Nodup) (hc : E.Complete scD q) (ok : R.ok = true) : E.Inv root V R sc := by
  obtain ⟨new, k', ev, _, _, hshape, _, hsum⟩ := Unfold.unfold_lift pre hq
  unfold unfoldM at h
  split at h
  · rename_i rules st e
    have := Unfold.unfold_det e ev
    simp only [Prod.mk.injEq, and_true] at this
    obtain ⟨rfl, rfl⟩ := this
    simp only [pre.rule] at h
    split at h
    · cases h
    · cases h; simp [Rec.ok, zeroMeasure] at ok
    · split at h
      · rename_i r' mi ds er emi eds
        cases er
        split at h
        · cases h
        · rename_i rest erest
          cases h
          -- the rule and its measure
          have hmem : r ∈ P.prog.rules := List.mem_of_getElem? pre.rule
          have hz : (P.prog.rules.zip P.m)[i]? = some (r, mi) := by
            rw [List.getElem?_zip_eq_some]; exact ⟨pre.rule, emi⟩
          have hzm : (r, mi) ∈ P.prog.rules.zip P.m := List.mem_of_getElem? hz
          have hfst : (P.prog.rules.zip P.m).map Prod.fst = P.prog.rules := List.map_fst_zip (by rw [hP.len])
          have hzd : (P.prog.rules.zip P.m).Nodup := List.Nodup.of_map Prod.fst (by rw [hfst]; exact nd)
          have hperm : (P.prog.rules.zip P.m).Perm ((r, mi) :: (P.prog.rules.zip P.m).erase (r, mi)) := List.perm_cons_erase hzm
          have hee : ((P.prog.rules.zip P.m).erase (r, mi)).map Prod.fst = P.prog.rules.erase r := by
            have key : ∀ l : List (WRule W × Ival), (l.map Prod.fst).Nodup → (r, mi) ∈ l → (l.erase (r, mi)).map Prod.fst = (l.map Prod.fst).erase r := by
              intro l
              induction l with
              | nil => intro _ h; simp at h
              | cons e l ih =>
                intro hn hm
                rw [List.map_cons, List.nodup_cons] at hn
                by_cases he : e = (r, mi)
                · subst he; simp
                · have hm' : (r, mi) ∈ l := by
                    rcases List.mem_cons.1 hm with h | h
                    · exact absurd h.symm he
                    · exact h
                  have hne : e.1 ≠ r := fun h => hn.1 (h ▸ List.mem_map.2 ⟨_, hm', rfl⟩)
                  rw [List.erase_cons_tail (by simpa using he), List.map_cons, List.map_cons, List.erase_cons_tail (by simpa using hne), ih hn.2 hm']
            rw [key _ (by rw [hfst]; exact nd) hzm, hfst]
          have hrest : rest = ((P.prog.rules.zip P.m).erase (r, mi)).map Prod.snd :=
            copied_zip hP.len nd (fun e he => List.mem_of_mem_erase he) (by rw [hee]; exact erest)
          have hzr : (P.prog.rules.erase r).zip rest = (P.prog.rules.zip P.m).erase (r, mi) := by rw [← hee, hrest, zip_fst_snd]
          have hrl : rest.length = (P.prog.rules.erase r).length := by rw [← hee, hrest]; simp
          have hds := forall₂_of_allSome eds
          have hdl : ds.length = new.length := hds.length_eq.symm
          have hwf := hP.wf r hmem
          -- each new rule with the measure of its definition
          have hnew : ∀ (t : Nat) (e : WRule W × Option Nat) (I : Ival), new[t]? = some e → ds[t]? = some I →
              ∃ n s, e.2 = some n ∧ D.prog.rules[n]? = some s ∧ D.m[n]? = some I ∧ Shape r.head (r.body.take j) (r.body.drop (j + 1)) s e.1 := by
            intro t e I h1 h2
            obtain ⟨n, s, h3, h4, h5⟩ := hshape e (List.mem_of_getElem? h1)
            have := forall₂_at hds t e I h1 h2
            rw [h3] at this
            exact ⟨n, s, h3, h4, this, h5⟩
          have hz2 : ∀ g : Ival → ℤ, (∀ I J : Ival, g (I.add J) = g I + g J) → ∀ x, Tw lift (fun I : Ival => mono (g I))
              ((new.map Prod.fst).zip (ds.map mi.add)) V x = mono (g mi) * contribAt r.head ((r.body.take j).map (mapLit lift)) q
                ((r.body.drop (j + 1)).map (mapLit lift)) V (Tw lift (fun I : Ival => mono (g I)) (D.prog.rules.zip D.m) V) x := by
            intro g hg x
            rw [← contribAt_smul]
            have := hsum (Gr W) lift Gr.lifting (fun o => ((o.bind fun n => D.m[n]?).map fun I => (mono (g mi + g I) : Gr W)).getD 0) V x
            simp only [Option.bind_some] at this
            rw [show (Tw lift (fun i : Nat => ((D.m[i]?).map fun I => (mono (g mi + g I) : Gr W)).getD 0) D.prog.rules.zipIdx V) =
              fun y => mono (g mi) * Tw lift (fun I : Ival => mono (g I)) (D.prog.rules.zip D.m) V y from funext fun y => new_weights hD.len (g mi) g y] at this
            rw [← this]
            have h2 : List.Forall₂ (fun (e : WRule W × Option Nat) (I : Ival) => (e.2.bind fun n => D.m[n]?) = some I) new ds := hds
            refine Tw_zip_new ?_ V x
            refine List.forall₂_map_right_iff.2 (h2.imp fun e I h => ?_)
            rw [h, hg]
            rfl
          refine ⟨hP.inputs, ?_, fun t ht => ?_, hP.nodup, hP.lt, fun x => ?_, fun x => ?_, fun t ht => ?_⟩
          · simp [hrl, hdl]
          · rcases List.mem_append.1 ht with ht | ht
            · exact hP.wf t (List.mem_of_mem_erase ht)
            · obtain ⟨e, he, rfl⟩ := List.mem_map.1 ht
              obtain ⟨n, s, _, h4, h5⟩ := hshape e he
              exact shape_wf h5 hwf (hD.wf s (List.mem_of_getElem? h4))
          · simp only
            rw [zip_append_eq hrl, Tw_append, hzr, hz2 Ival.hi (fun _ _ => rfl)]
            refine Late.trans ?_ (hP.hi x)
            rw [Tw_perm hperm, Tw_cons, add_comm (mono (mi.hi) * _)]
            refine (Late.refl _).add (Late.mul_right ?_ _)
            rw [gcontrib_split pre.goal]
            refine late_contribAt (fun θ => ?_) x
            rw [defs_value hV hd hD.nodup hD.lt hq (hD.inputs ▸ pre.notInput) hc]
            exact hD.hi _
          · simp only
            rw [zip_append_eq hrl, Tw_append, hzr, hz2 Ival.lo (fun _ _ => rfl)]
            refine Late.trans (hP.lo x) ?_
            rw [Tw_perm hperm, Tw_cons, add_comm (mono (mi.lo) * _)]
            refine (Late.refl _).add (Late.mul_right ?_ _)
            rw [gcontrib_split pre.goal]
            refine late_contribAt (fun θ => ?_) x
            rw [defs_value hV hd hD.nodup hD.lt hq (hD.inputs ▸ pre.notInput) hc]
            exact hD.lo _
          · simp only at ht
            rw [zip_append_eq hrl, hzr] at ht
            rcases List.mem_append.1 ht with ht | ht
            · exact hP.grow t (List.mem_of_mem_erase ht)
            · obtain ⟨n, hn, rfl⟩ := List.mem_iff_getElem.1 ht
              simp only [List.length_zip, List.length_map] at hn
              rw [List.getElem_zip, List.getElem_map, List.getElem_map]
              obtain ⟨n', s, _, h4, h6, h5⟩ := hnew n _ _ (List.getElem?_eq_getElem (by omega)) (List.getElem?_eq_getElem (by omega))
              generalize ds[n]'(by omega) = I at h6
              generalize new[n]'(by omega) = e at h5
              have hs := hD.wf s (List.mem_of_getElem? h4)
              have g1 := hP.grow (r, mi) hzm
              have g2 := hD.grow (s, I) (List.mem_of_getElem? (i := n') (by rw [List.getElem?_zip_eq_some]; exact ⟨h4, h6⟩))
              have h7 := shape_size (ops := E.ops) h5 (fun t ht => hwf.body t (List.mem_of_mem_take ht)) (fun t ht => hwf.body t (List.mem_of_mem_drop ht)) hs.body
              have h8 : minSize E.ops r.body = minSize E.ops (r.body.take j) + (1 + minSize E.ops (r.body.drop (j + 1))) := by
                conv_lhs => rw [split_body pre.goal]
                rw [minSize_append, minSize_cons]
                simp only [minSizeL]
                rw [minSizeT_named (UserHead.named hq), hu]
                simp
              have p1 := minSize_nonneg E.ops (r.body.take j)
              have p2 := minSize_nonneg E.ops (r.body.drop (j + 1))
              have p3 := minSize_nonneg E.ops s.body
              simp only [Ival.add] at *
              rw [h7]
              rw [h8] at g1
              rw [max_eq_right (by omega)] at g1
              rcases le_total 1 (minSize E.ops s.body) with h9 | h9
              · rw [max_eq_right h9] at g2
                rw [max_eq_right (by omega)]
                omega
              · rw [max_eq_left h9] at g2
                rcases le_total 1 (minSize E.ops (r.body.take j) + minSize E.ops s.body + minSize E.ops (r.body.drop (j + 1))) with h10 | h10
                · rw [max_eq_right h10]; omega
                · rw [max_eq_left h10]; omega
      · cases h
  · cases h

theorem pairwise_nodup (ho : E.o.Lawful) {l : List (WRule W)} (h : l.Pairwise fun r s => E.o.same r s = false) : l.Nodup :=
  h.imp fun hf e => by subst e; rw [ho.refl] at hf; cases hf

theorem pairwise_eq (ho : E.o.Lawful) {l : List (WRule W)} (h : l.Pairwise fun r s => E.o.same r s = false) {r s : WRule W} (hr : r ∈ l) (hs : s ∈ l)
    (he : E.o.same r s = true) : r = s := by
  by_contra hne
  have hsym : Std.Symm (fun r s : WRule W => E.o.same r s = false) := ⟨fun a b hab => by
    cases hba : E.o.same b a with
    | false => rfl
    | true => rw [ho.symm b a hba] at hab; cases hab⟩
  have := h.forall hr hs hne
  rw [he] at this
  cases this

theorem pairwise_map_eq (ho : E.o.Lawful) {l p : List (WRule W)} {q : List (WRule W × Ival)} (h : l.Pairwise fun r s => E.o.same r s = false)
    (hp : ∀ r ∈ p, r ∈ l) (hq : ∀ e ∈ q, e.1 ∈ l) (hf : List.Forall₂ (fun r (e : WRule W × Ival) => E.o.same r e.1 = true) p q) : p = q.map Prod.fst := by
  induction hf with
  | nil => rfl
  | cons h1 _ ih =>
    rw [List.map_cons, ← ih (fun r hr => hp r (List.mem_cons_of_mem _ hr)) (fun e he => hq e (List.mem_cons_of_mem _ he))]
    congr 1
    exact pairwise_eq ho h (hp _ (by simp)) (hq _ (by simp)) h1

theorem fold_inv (hE : E.Fair) {P D R : Rec W} {sc scD : List Nat} {r : WRule W} {q : Tm} {f k id j : Nat} {S : Finset Nat} (hV : Solves E d V)
    (hd : Data E.ops root.inputs d) (hP : E.Inv root V P sc) (hD : E.Inv root V D scD)
    (h : foldM f E.o E.ord E.ops infty E.code E.pick k id P D r S j = some R)
    (pre : Pre E.ops k (fold P.prog r S) D.prog 0 j r q) (hq : UserHead E.ops q) (hu : isBuiltin E.ops q = false) (hr : WF E.ops r)
    (nd : P.prog.rules.Pairwise fun r s => E.o.same r s = false) (hc : E.Complete scD q) (ok : R.ok = true) : E.Inv root V R sc := by
  obtain ⟨new, k', ev, _, _, hshape, _, hsum⟩ := Unfold.unfold_lift pre hq
  have hlaw := hE.same.lawful
  have her : (fold P.prog r S).rules.erase r = minus P.prog.rules S := by simp [fold]
  rw [her] at ev
  unfold foldM at h
  simp only at h
  split at h
  · rename_i u st e
    have := Unfold.unfold_det e ev
    simp only [Prod.mk.injEq, and_true] at this
    obtain ⟨rfl, rfl⟩ := this
    split at h
    · cases h
    · rename_i heq
      rw [Bool.not_eq_false] at heq
      split at h
      · cases h
      · cases h; simp [Rec.ok, zeroMeasure] at ok
      · split at h
        · cases h
        · rename_i pairs epairs
          split at h
          · cases h
          · rename_i es ees
            split at h
            · rename_i lo hi rest elo ehi erest
              cases h
              rw [her] at epairs
              simp only [Rec.ok, ok_append] at ok
              -- the alignment
              obtain ⟨l, q', hlook, hll, hperm, hlq, hsame⟩ := align_zip hlaw hE.order hP.len (progEq_symm hlaw heq)
              obtain ⟨q1, q2, rfl, hs1, hs2⟩ := forall₂_append_inv hsame
              have hmemz : ∀ e ∈ q1 ++ q2, e ∈ P.prog.rules.zip P.m := fun e he => hperm.mem_iff.1 he
              have hmem1 : ∀ e ∈ q1, e.1 ∈ P.prog.rules := fun e he => (List.of_mem_zip (a := e.1) (b := e.2) (hmemz e (by simp [he]))).1
              have hmem2 : ∀ e ∈ q2, e.1 ∈ P.prog.rules := fun e he => (List.of_mem_zip (a := e.1) (b := e.2) (hmemz e (by simp [he]))).1
              have hq1 : minus P.prog.rules S = q1.map Prod.fst := pairwise_map_eq hlaw nd minus_subset hmem1 hs1
              have hrest : rest = q1.map Prod.snd := copied_zip hP.len (pairwise_nodup hlaw nd) (fun e he => hmemz e (by simp [he])) (by rw [← hq1]; exact erest)
              have hz1 : (minus P.prog.rules S).zip rest = q1 := by rw [hq1, hrest, zip_fst_snd]
              have hl1 : q1.length = (minus P.prog.rules S).length := by rw [hq1]; simp
              have hl2 : q2.length = new.length := by have := hs2.length_eq; simpa using this.symm
              -- each new rule, its partner and its entry
              have hpairs := forall₂_of_allSome epairs
              have hes := forall₂_of_allSome ees
              have hpl : pairs.length = new.length := by have := hpairs.length_eq; simpa using this.symm
              have hel : es.length = new.length := by have := hes.length_eq; rw [← this, hpl]
              have hkey : ∀ (t : Nat) (e : WRule W × Option Nat) (p : WRule W × Ival), new[t]? = some e → q2[t]? = some p →
                  ∃ n s md x, e.2 = some n ∧ D.prog.rules[n]? = some s ∧ D.m[n]? = some md ∧ Shape r.head (r.body.take j) (r.body.drop (j + 1)) s e.1 ∧
                    WVariant e.1 p.1 ∧ es[t]? = some x ∧ x.1 = p.2.sub md ∧ x.2 = minSize E.ops (r.body.take j) + minSize E.ops (r.body.drop (j + 1)) := by
                intro t e p h1 h2
                obtain ⟨n, s, h3, h4, h5⟩ := hshape e (List.mem_of_getElem? h1)
                have ht : t < new.length := (List.getElem?_eq_some_iff.1 h1).1
                have hvar : WVariant e.1 p.1 := by
                  refine hE.same.variant _ _ (forall₂_at hs2 t e.1 p ?_ h2)
                  rw [List.getElem?_map, h1]; rfl
                have hpr := forall₂_at hpairs t (e, t) (pairs[t]'(by omega)) (by rw [List.getElem?_zipIdx, h1]; simp) (List.getElem?_eq_getElem (by omega))
                rw [h3, hlook, ← hl1] at hpr
                have hlt : ∃ jj, l[q1.length + t]? = some jj := ⟨_, List.getElem?_eq_getElem (by rw [hll]; simp; omega)⟩
                obtain ⟨jj, hjj⟩ := hlt
                rw [hjj] at hpr
                simp only [Option.map_some, Option.some.injEq] at hpr
                have hje := forall₂_at hlq (q1.length + t) jj p hjj (by rw [List.getElem?_append_right (by omega)]; simpa using h2)
                have hx := forall₂_at hes t _ _ (List.getElem?_eq_getElem (by omega : t < pairs.length)) (List.getElem?_eq_getElem (by omega : t < es.length))
                rw [← hpr] at hx
                unfold foldEntry at hx
                simp only [hje.1, hje.2, h4] at hx
                split at hx
                · rename_i mp md rp rd e1 e2 e3 e4
                  cases e1; cases e3; cases e4
                  split at hx
                  · cases hx
                  · rename_i fl efl
                    split at hx
                    · cases hx
                    · rename_i ft eft
                      refine ⟨n, s, md, es[t]'(by omega), h3, h4, e2, h5, hvar, List.getElem?_eq_getElem (by omega), ?_, ?_⟩
                      · rw [← (Option.some.inj hx)]
                      · rw [← (Option.some.inj hx)]
                        simp only [minSize_nil]
                        have hsw := hD.wf s (List.mem_of_getElem? h4)
                        have hew := shape_wf h5 hr hsw
                        rw [ruleFolds_size hE.order hsw.body efl (hE.picks _ _ eft), variant_size hvar hew.body,
                          shape_size (ops := E.ops) h5 (fun t ht => hr.body t (List.mem_of_mem_take ht)) (fun t ht => hr.body t (List.mem_of_mem_drop ht)) hsw.body]
                        omega
                · cases hx
              obtain ⟨lomem, lomin⟩ := minOf_mem elo
              have himax := maxOf_le ehi
              have hw : ∀ (c : ℤ) (g : Ival → ℤ) x, Tw lift (fun o : Option Nat => ((o.bind fun n => D.m[n]?).map fun I => (mono (c + g I) : Gr W)).getD 0) new V x =
                  mono c * contribAt r.head ((r.body.take j).map (mapLit lift)) q ((r.body.drop (j + 1)).map (mapLit lift)) V
                    (Tw lift (fun I : Ival => mono (g I)) (D.prog.rules.zip D.m) V) x := by
                intro c g x
                rw [← contribAt_smul]
                have := hsum (Gr W) lift Gr.lifting (fun o => ((o.bind fun n => D.m[n]?).map fun I => (mono (c + g I) : Gr W)).getD 0) V x
                simp only [Option.bind_some] at this
                rw [show (Tw lift (fun i : Nat => ((D.m[i]?).map fun I => (mono (c + g I) : Gr W)).getD 0) D.prog.rules.zipIdx V) =
                  fun y => mono c * Tw lift (fun I : Ival => mono (g I)) (D.prog.rules.zip D.m) V y from funext fun y => new_weights hD.len c g y] at this
                exact this
              have hvq : ∀ θ, V (gsub θ q) = E.ref scD V (gsub θ q) := defs_value hV hd hD.nodup hD.lt hq (hD.inputs ▸ pre.notInput) hc
              have hTP : ∀ (g : Ival → Gr W) x, Tw lift g (P.prog.rules.zip P.m) V x = Tw lift g q1 V x + Tw lift g q2 V x := fun g x => by
                rw [← Tw_perm hperm, Tw_append]
              refine ⟨hP.inputs, ?_, fun t ht => ?_, hP.nodup, hP.lt, fun x => ?_, fun x => ?_, fun t ht => ?_⟩
              · simp only [fold, List.length_cons]; rw [hrest, hq1]; simp
              · rcases List.mem_cons.1 ht with rfl | ht
                · exact hr
                · exact hP.wf t (minus_subset t ht)
              · show Late (Tw lift (fun I : Ival => mono I.hi) ((r :: minus P.prog.rules S).zip (⟨lo, hi⟩ :: rest)) V x) _
                rw [List.zip_cons_cons, hz1, Tw_cons]
                refine Late.trans ?_ (hP.hi x)
                rw [hTP, add_comm]
                refine (Late.refl _).add ?_
                simp only
                rw [gcontrib_split pre.goal]
                refine Late.trans (Late.mul_right (late_contribAt (u' := Tw lift (fun I : Ival => mono I.lo) (D.prog.rules.zip D.m) V) (fun θ => ?_) x) _) ?_
                · rw [hvq θ]; exact hD.lo _
                · rw [← hw]
                  refine late_forall₂ (forall₂_idx hl2.symm fun t e p h1 h2 => ?_)
                  obtain ⟨n, s, md, x', h3, _, h5, _, h6, h7, h8, _⟩ := hkey t e p h1 h2
                  rw [h3]
                  simp only [Option.bind_some, h5, Option.map_some, Option.getD_some]
                  rw [gcontrib_variant h6]
                  refine Gr.late_mono ?_ _
                  have := himax x'.1.hi (List.mem_map.2 ⟨x', List.mem_of_getElem? h7, rfl⟩)
                  rw [h8] at this
                  simp only [Ival.sub] at this
                  omega
              · show Late _ (Tw lift (fun I : Ival => mono I.lo) ((r :: minus P.prog.rules S).zip (⟨lo, hi⟩ :: rest)) V x)
                rw [List.zip_cons_cons, hz1, Tw_cons]
                refine Late.trans (hP.lo x) ?_
                rw [hTP, add_comm (mono _ * _)]
                refine (Late.refl _).add ?_
                simp only
                rw [gcontrib_split pre.goal]
                refine Late.trans ?_ (Late.mul_right (late_contribAt (u := Tw lift (fun I : Ival => mono I.hi) (D.prog.rules.zip D.m) V) (fun θ => ?_) x) _)
                · rw [← hw]
                  refine late_forall₂ (forall₂_idx hl2 fun t p e h1 h2 => ?_)
                  obtain ⟨n, s, md, x', h3, _, h5, _, h6, h7, h8, _⟩ := hkey t e p h2 h1
                  rw [h3]
                  simp only [Option.bind_some, h5, Option.map_some, Option.getD_some]
                  rw [gcontrib_variant h6]
                  refine Gr.late_mono ?_ _
                  have := lomin x'.1.lo (List.mem_map.2 ⟨x', List.mem_of_getElem? h7, rfl⟩)
                  rw [h8] at this
                  simp only [Ival.sub] at this
                  omega
                · rw [hvq θ]; exact hD.hi _
              · have ht : t ∈ (r, (⟨lo, hi⟩ : Ival)) :: q1 := by rw [← hz1, ← List.zip_cons_cons]; exact ht
                rcases List.mem_cons.1 ht with rfl | ht
                · simp only
                  obtain ⟨x', hx', rfl⟩ := List.mem_map.1 lomem
                  obtain ⟨t, htl, rfl⟩ := List.mem_iff_getElem.1 hx'
                  obtain ⟨n, s, md, x'', _, _, _, _, _, h7, _, h9⟩ := hkey t (new[t]'(by omega)) (q2[t]'(by omega)) (List.getElem?_eq_getElem _) (List.getElem?_eq_getElem _)
                  rw [List.getElem?_eq_getElem htl, Option.some.injEq] at h7
                  have hcon := List.all_eq_true.1 ok.2 _ (List.mem_map.2 ⟨_, hx', rfl⟩)
                  simp only [_root_.id, decide_eq_true_eq] at hcon
                  rw [h7] at hcon ⊢
                  rw [h9] at hcon
                  have h8 : minSize E.ops r.body = minSize E.ops (r.body.take j) + (1 + minSize E.ops (r.body.drop (j + 1))) := by
                    conv_lhs => rw [split_body pre.goal]
                    rw [minSize_append, minSize_cons]
                    simp only [minSizeL]
                    rw [minSizeT_named (UserHead.named hq), hu]
                    simp
                  have := le_max_right 1 (minSize E.ops r.body)
                  omega
                · exact hP.grow t (hmemz t (by simp [ht]))
            · cases h
  · cases h

theorem cached_inv (hE : E.Fair) {P R : Rec W} {sc : List Nat} {p : Prog W} {lin} (hP : E.Inv root V P sc)
    (he : E.o.progEq false p.rules P.prog.rules = true) (hi : p.inputs = P.prog.inputs) (h : alignM E.o E.ord P p lin = some R) : E.Inv root V R sc := by
  obtain ⟨l, q', hlook, hll, hperm, hlq, hsame⟩ := align_zip hE.same.lawful hE.order hP.len he
  unfold alignM at h
  simp only at h
  split at h
  · cases h
  · rename_i m em
    cases h
    have hm := forall₂_of_allSome em
    have hql : q'.length = P.prog.rules.length := by rw [hperm.length_eq]; simp [hP.len]
    have hpl : p.rules.length = P.prog.rules.length := by rw [hsame.length_eq, hql]
    have hml : m.length = P.prog.rules.length := by have := hm.length_eq; simpa using this.symm
    have hm' : m = q'.map Prod.snd := by
      refine List.ext_getElem? fun i => ?_
      by_cases hi : i < P.prog.rules.length
      · have h1 := forall₂_at hm i i (m[i]'(by omega)) (List.getElem?_range hi) (List.getElem?_eq_getElem (by omega))
        have hli : l[i]? = some (l[i]'(by omega)) := List.getElem?_eq_getElem (by omega)
        rw [hlook, hli] at h1
        simp only [Option.map_some] at h1
        have h2 := forall₂_at hlq i _ (q'[i]'(by omega)) hli (List.getElem?_eq_getElem (by omega))
        rw [h2.2] at h1
        rw [List.getElem?_map, List.getElem?_eq_getElem (by omega : i < m.length), List.getElem?_eq_getElem (by omega : i < q'.length), ← h1]
        rfl
      · rw [List.getElem?_eq_none (by omega), List.getElem?_eq_none (by simp; omega)]
    have hvar : List.Forall₂ (fun r (e : WRule W × Ival) => WVariant r e.1) p.rules q' := hsame.imp fun r e h => hE.same.variant _ _ h
    have hmemq : ∀ e ∈ q', e.1 ∈ P.prog.rules := fun e he => (List.of_mem_zip (a := e.1) (b := e.2) (hperm.mem_iff.1 he)).1
    have hT : ∀ (g : Ival → Gr W) x, Tw lift g (p.rules.zip m) V x = Tw lift g (P.prog.rules.zip P.m) V x := by
      intro g x
      rw [← Tw_perm hperm, hm']
      clear hlq hlook hll hperm hsame he hm em hml hpl hql hm' hmemq hi
      generalize p.rules = rs at hvar
      induction hvar with
      | nil => rfl
      | cons h _ ih => rw [List.map_cons, List.zip_cons_cons, Tw_cons, Tw_cons, ih, gcontrib_variant h]
    refine ⟨hi.trans hP.inputs, by simp only; omega, fun r hr => ?_, hP.nodup, hP.lt, fun x => ?_, fun x => ?_, fun t ht => ?_⟩
    · obtain ⟨i, hi, rfl⟩ := List.mem_iff_getElem.1 hr
      simp only at hi
      have := forall₂_at hvar i _ (q'[i]'(by omega)) (List.getElem?_eq_getElem hi) (List.getElem?_eq_getElem (by omega))
      exact variant_wf this.symm (hP.wf _ (hmemq _ (List.getElem_mem _)))
    · simp only; rw [hT]; exact hP.hi x
    · simp only; rw [hT]; exact hP.lo x
    · obtain ⟨i, hi, rfl⟩ := List.mem_iff_getElem.1 ht
      simp only [List.length_zip] at hi
      have hv := forall₂_at hvar i _ (q'[i]'(by omega)) (List.getElem?_eq_getElem (by omega)) (List.getElem?_eq_getElem (by omega))
      have hg := hP.grow (q'[i]'(by omega)) (hperm.mem_iff.1 (List.getElem_mem _))
      rw [List.getElem_zip]
      simp only
      rw [← variant_size hv.symm (hP.wf _ (hmemq _ (List.getElem_mem _))).body] at hg
      have : m[i]'(by omega) = (q'[i]'(by omega)).2 := by
        have h2 : m[i]? = (q'.map Prod.snd)[i]? := by rw [hm']
        rw [List.getElem?_map, List.getElem?_eq_getElem (by omega : i < m.length), List.getElem?_eq_getElem (by omega : i < q'.length)] at h2
        simpa using h2
      rw [this]
      exact hg

theorem reach_inv (hE : E.Fair) (hV : Solves E d V) (hd : Data E.ops root.inputs d) {R : Rec W} {sc : List Nat} (h : E.Reach root R sc)
    (ok : R.ok = true) : E.Inv root V R sc := by
  induction h with
  | root id hn hB => exact root_inv hE id hn hB ok
  | @define P R sc id b news hP h hn hB hb ih =>
    refine define_inv hE (ih ?_) h hn hB hb ok
    unfold defineM at h
    split at h
    · cases h
    · cases h
      simp only [Rec.ok, ok_append] at ok
      exact ok.1
  | @unfold P D R sc scD r q f k id i j hP hD h pre hq hu nd hc ih ihD =>
    have h' : P.ok = true ∧ D.ok = true := by
      have h := h
      unfold unfoldM at h
      split at h
      · simp only at h
        split at h
        · cases h
        · cases h; simp [Rec.ok, zeroMeasure] at ok
        · split at h
          · split at h
            · cases h
            · cases h
              simp only [Rec.ok, ok_append] at ok
              exact ok.1
          · cases h
      · cases h
    exact unfold_inv hV hd (ih h'.1) (ihD h'.2) h pre hq hu nd hc ok
  | @fold P D R sc scD r q f k id j S hP hD h pre hq hu hr nd hc ih ihD =>
    have h' : P.ok = true ∧ D.ok = true := by
      have h := h
      unfold foldM at h
      simp only at h
      split at h
      · split at h
        · cases h
        · split at h
          · cases h
          · cases h; simp [Rec.ok, zeroMeasure] at ok
          · split at h
            · cases h
            · split at h
              · cases h
              · split at h
                · cases h
                  simp only [Rec.ok, ok_append] at ok
                  exact ok.1
                · cases h
      · cases h
    exact fold_inv hE hV hd (ih h'.1) (ihD h'.2) h pre hq hu hr nd hc ok
  | cached hP he hi h ih =>
    refine cached_inv hE (ih ?_) he hi h
    unfold alignM at h
    simp only at h
    split at h
    · cases h
    · cases h; exact ok

theorem bsize_minSize {b : List (Lit W)} (h : ∀ t, Lit.sub t ∈ b → Named t) (θ : Nat → GTm) : Gr.bsize E.sz θ b = minSize E.ops b := by
  induction b with
  | nil => rfl
  | cons l b ih =>
    rw [minSize_cons, ← ih fun t ht => h t (List.mem_cons_of_mem _ ht)]
    cases l with
    | val c => rw [Gr.bsize_val]; simp [minSizeL]
    | sub t =>
      rw [Gr.bsize_sub]
      congr 1
      exact minSizeT_sub (h t (by simp)) _

/-- naive evaluation of a program with the invariant approaches exactly the graded solution -/
theorem rounds_bound (hV : Solves E d V) (hE : E.Fair) {R : Rec W} {sc : List Nat} (hR : E.Inv root V R sc) (hsc : sc.Perm (List.range E.n)) :
    (∀ (k : Nat) x, cum (k - 1) (V x) ≤ rounds R.prog.rules d k x) ∧ ∀ k, ∃ S : ℤ, ∀ x, rounds R.prog.rules d k x ≤ cum S (V x) := by
  have hs : ∀ x, 0 ≤ E.sz x ∧ E.sz x ≤ 1 := fun x => minSizeT_range _ _
  have hfst : (R.prog.rules.zip R.m).map Prod.fst = R.prog.rules := List.map_fst_zip (by rw [hR.len])
  have hb : ∀ x, E.sz x = 0 → ∀ n, cum n (V x) ≤ d x := by
    intro x hx n
    have h0 : E.ref (List.range E.n) V x = 0 := by
      unfold ref
      have : ∀ l : List Nat, (∀ i ∈ l, i < E.n) → Tw lift (fun i => mono (E.val i)) (l.map fun i => (E.B i, i)) V x = 0 := by
        intro l hl
        induction l with
        | nil => rfl
        | cons i l ih =>
          rw [List.map_cons, Tw_cons, ih fun i hi => hl i (List.mem_cons_of_mem _ hi), contrib_miss, mul_zero, add_zero]
          rintro θ rfl
          have hw := hE.rules i (hl i (by simp))
          have : E.sz (gsub θ (E.B i).head) = 1 := by
            show minSizeT E.ops ((E.B i).head.sub _) = 1
            rw [minSizeT_sub (UserHead.named hw.head), minSizeT_named (UserHead.named hw.head), hw.user]
            rfl
          rw [this] at hx
          exact absurd hx (by norm_num)
      exact this _ fun i hi => List.mem_range.1 hi
    rw [hV.eq, h0, add_zero]
    exact Gr.cum_at_le _ _ _
  constructor
  · have := Gr.cum_le_rounds (d := d) (q := R.prog.rules.zip R.m) (lo := Ival.lo) hs hV.supp (fun x => ?_) hb (fun t ht θ => ?_)
    · rw [hfst] at this; exact this
    · conv_lhs => rw [hV.eq]
      rw [← ref_perm hsc]
      exact (Late.refl _).add (hR.lo x)
    · rw [bsize_minSize (hR.wf t.1 (List.of_mem_zip (a := t.1) (b := t.2) ht).1).body]
      exact hR.grow t ht
  · intro k
    obtain ⟨S, _, h⟩ := Gr.rounds_le_cum (V := V) (d := d) (q := R.prog.rules.zip R.m) (hi := Ival.hi) hs (fun x => by
      conv_rhs => rw [hV.eq]
      rw [← ref_perm hsc]
      exact (Late.refl _).add (hR.hi x)) k
    rw [hfst] at h
    exact ⟨S, h⟩

end Env

/-! ### Property C49 -/

/-- **C49.**  If the constraints of a measured program hold for some values of the unknowns, and the program was made from all of the
rules that the unknowns stand for, then naive evaluation of the program has the same upper bounds, for every item and from any
data, as naive evaluation of those rules. -/
theorem C49_sound {E : Env W S'} (hE : E.Fair) {root : Prog W} {R : Rec W} {sc : List Nat} (h : E.Reach root R sc) (ok : R.ok = true)
    (hsc : sc.Perm (List.range E.n)) {d : GTm → W} (hd : Data E.ops root.inputs d) (x : GTm) (c : W) :
    (∀ k, rounds R.prog.rules d k x ≤ c) ↔ ∀ k, rounds ((List.range E.n).map E.B) d k x ≤ c := by
  have hpos : ∀ i < E.n, 1 ≤ E.val i := fun i hi => Env.pos_of_ok h ok i (hsc.mem_iff.2 (List.mem_range.2 hi))
  obtain ⟨V, hV1, hV2⟩ := Gr.exists_solution ((List.range E.n).map fun i => (E.B i, i)) E.val (fun t ht => by
    obtain ⟨i, hi, rfl⟩ := List.mem_map.1 ht
    exact hpos i (List.mem_range.1 hi)) d E.sz (fun x => minSizeT_range _ _)
  have hV : Env.Solves E d V := ⟨hV1, hV2⟩
  obtain ⟨b1, b2⟩ := Env.rounds_bound hV hE (Env.reach_inv hE hV hd h ok) hsc
  -- the rules of the unknowns themselves are such a program
  let R0 : Rec W := ⟨⟨(List.range E.n).map E.B, root.inputs⟩, [], (List.range E.n).map fun i => ⟨E.val i, E.val i⟩, []⟩
  have hT : ∀ (g : Ival → Int), (∀ v : Int, g ⟨v, v⟩ = v) → ∀ x, Tw lift (fun I : Ival => (mono (g I) : Gr W)) (R0.prog.rules.zip R0.m) V x = E.ref (List.range E.n) V x := by
    intro g hg x
    simp only [R0]
    rw [List.zip_map']
    unfold Env.ref Tw
    rw [List.map_map, List.map_map]
    congr 1
    refine List.map_congr_left fun i _ => ?_
    simp only [Function.comp, hg]
  have hI : E.Inv root V R0 (List.range E.n) := by
    refine ⟨rfl, by simp [R0], fun r hr => ?_, List.nodup_range, fun i hi => List.mem_range.1 hi, fun x => .of_eq (hT Ival.hi (fun _ => rfl) x),
      fun x => .of_eq (hT Ival.lo (fun _ => rfl) x).symm, fun t ht => ?_⟩
    · obtain ⟨i, hi, rfl⟩ := List.mem_map.1 hr
      exact hE.rules i (List.mem_range.1 hi)
    · obtain ⟨i, hi, e⟩ := List.mem_map.1 (List.of_mem_zip (a := t.1) (b := t.2) ht).2
      have h1 : t.2.lo = E.val i := by rw [← e]
      have := hpos i (List.mem_range.1 hi)
      have := le_max_left 1 (minSize E.ops t.1.body)
      omega
  obtain ⟨c1, c2⟩ := Env.rounds_bound hV hE hI (.refl _)
  have key : ∀ p q : List (WRule W), (∀ (k : Nat) x, cum (k - 1) (V x) ≤ rounds p d k x) → (∀ k, ∃ S : ℤ, ∀ x, rounds q d k x ≤ cum S (V x)) →
      (∀ k, rounds p d k x ≤ c) → ∀ k, rounds q d k x ≤ c := by
    intro p q hp hq h k
    obtain ⟨S, hS⟩ := hq k
    refine le_trans (hS x) (le_trans ?_ (h (S.toNat + 1)))
    refine le_trans (Gr.cum_le_cum ?_ _) (hp _ _)
    push_cast
    omega
  exact ⟨key _ _ b1 c2, key _ _ c1 b2⟩

end
end Measure
end Verif
