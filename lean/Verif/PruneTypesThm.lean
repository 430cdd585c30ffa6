/-
Property C67: pruning with type analysis keeps the values.
-/
import Verif.PruneTypes
import Verif.TypeAnThm
import Verif.MagicThm
import Verif.GeneralizeThm

set_option linter.unusedSectionVars false
set_option linter.unusedSimpArgs false

namespace Verif
namespace PruneTypes
open Tm Heap Sem
open Rewrites (Ty Den)
open Solver (noHeap forEach)
open Unfold (Ops derefR freshR bval UserHead subRule gsub_sub bv_sub sub_ext_eq mem_rvars_sub freshR_spec derefR_evt)
open Solver2 (Inst Ok Resp M M_congr M_zero M_list M_inst M_unbound M_noHeap ok_bindAll bindAll_none ok_noHeap)
open TypeAn (Cfg Callable freshT tryTy lookupVals join)
variable {W : Type}

/-! ### Specification -/

open Classical in
/-- how often an item is matched: builtins once, other items by every pattern they are an instance of -/
noncomputable def mult (ops : Ops) (S : List Tm) (y : GTm) : Nat :=
  if bval (W := Nat) ops y.1 = none then (S.filter fun s => decide (Inst s y)).length else 1

/-- builtins that do not hold have the value zero -/
def BZero [CSemi W] (ops : Ops) (v : GTm → W) : Prop := ∀ y : GTm, bval ops y.1 = some (0 : W) → v y = 0

/-- a rule that can be specialized: variables below the mark, an ordinary head, callable subgoals -/
structure POk (ops : Ops) (k : Nat) (r : WRule W) : Prop where
  vs : ∀ n ∈ rvars r, n < k
  user : UserHead ops r.head
  call : ∀ t, .sub t ∈ r.body → Callable t

section
variable [CSemi W]

/-! ### What a computation adds to the new rules -/

/-- a normal run of `b` from `h` restores the store and adds `X` to the step operator of the collected rules -/
def Adds (v : GTm → W) (x : GTm) (V : Finset Nat) (h : Heap) (b : Body (List (WRule W) × Nat)) (X : W) : Prop :=
  ∀ s h' s', (∀ n ∈ V, n < s.2) → b h s = some (h', s', .done) → h' = h ∧ s.2 ≤ s'.2 ∧ T s'.1 v x = T s.1 v x + X

variable {v : GTm → W} {x : GTm}

theorem forEach_adds {α : Type} {V : Finset Nat} {h : Heap} {b : α → Body (List (WRule W) × Nat)} {X : α → W} :
    ∀ {l : List α}, (∀ a ∈ l, Adds v x V h (b a) (X a)) → Adds v x V h (forEach l b) (l.map X).sum
  | [], _ => by
    intro s h' s' _ e
    simp only [forEach, Option.some.injEq, Prod.mk.injEq] at e
    obtain ⟨rfl, rfl, _⟩ := e
    exact ⟨rfl, le_refl _, by simp⟩
  | a :: l, ha => by
    intro s h' s' hk e
    simp only [forEach] at e
    split at e
    · cases e
    · rename_i h1 s1 e1
      obtain ⟨rfl, k1, d1⟩ := ha a (by simp) s h1 s1 hk e1
      obtain ⟨rfl, k2, d2⟩ := forEach_adds (l := l) (fun a h => ha a (by simp [h])) s1 h' s' (fun n hn => (hk n hn).trans_le k1) e
      exact ⟨rfl, k1.trans k2, by rw [d2, d1]; simp [add_assoc]⟩
    · rename_i r hne _
      simp only [Option.some.injEq] at e
      subst e
      exact (hne _ _ rfl).elim

open Classical in
theorem unify_adds {f : Nat} {V : Finset Nat} {h : Heap} (o : Ok h V) {t u : Tm} (ht : vars t ⊆ V) (hu : vars u ⊆ V)
    {b : Body (List (WRule W) × Nat)} {F : (Nat → GTm) → W}
    (hk : ∀ h', Ok h' V → (∀ n, h' n = none → h n = none) → (∀ τ, Respects h' τ ↔ Respects h τ ∧ t.sub τ = u.sub τ) →
      Adds v x V h' b (M h' V F)) :
    Adds v x V h (unifyF f t u b) (M h V fun θ => if gsub θ t = gsub θ u then F θ else 0) := by
  intro s h' s' hV e
  obtain ⟨r, hsp, hrun⟩ := unify_run o.good t u
  have e2 := hrun _ _ _ _ e
  cases r with
  | none =>
    simp only [run, Option.some.injEq, Prod.mk.injEq] at e2
    obtain ⟨rfl, rfl, _⟩ := e2
    refine ⟨rfl, le_refl _, ?_⟩
    cases hsp with
    | fail hf =>
    rw [M_zero, add_zero]
    intro θ hθ
    exact if_neg fun he => hf _ hθ (sub_ext_eq.1 he)
  | some bs =>
    have o' := ok_bindAll o ht hu hsp
    cases hsp with
    | ok _ hg hr hn hd hv =>
    have hub : unbindAll bs (bindAll h bs) = h := unbindAll_bindAll hn fun p hp => by
      rcases Finset.mem_union.1 (hd p hp) with h2 | h2
      · exact o.good.vars_res h2
      · exact o.good.vars_res h2
    simp only [run] at e2
    split at e2
    · cases e2
    · rename_i h1 s1 sig e3
      simp only [Option.some.injEq, Prod.mk.injEq] at e2
      obtain ⟨rfl, rfl, rfl⟩ := e2
      obtain ⟨rfl, k1, d1⟩ := hk _ o' (fun n => bindAll_none) hr s h1 s1 hV e3
      refine ⟨hub, k1, ?_⟩
      rw [d1]
      congr 1
      unfold M
      refine isum_congr fun a => ?_
      have : Resp (bindAll h bs) (ext a) ↔ Resp h (ext a) ∧ gsub (ext a) t = gsub (ext a) u := by
        rw [sub_ext_eq]; exact hr _
      by_cases h1 : Resp h (ext a) <;> by_cases h2 : gsub (ext a) t = gsub (ext a) u <;> simp [this, h1, h2]

open Classical in
theorem emit_adds {f : Nat} {V : Finset Nat} {h : Heap} (o : Ok h V) {r : WRule W} (hr : rvars r ⊆ V) (hc : Solver2.Cov r h V) :
    Adds v x V h (emit f r) (M h V fun θ => if gsub θ r.head = x then bv v θ r.body else 0) := by
  intro s h' s' hV e
  unfold emit at e
  cases e1 : derefR h f r with
  | none => rw [e1] at e; cases e
  | some r' =>
    obtain ⟨N, hN⟩ := derefR_evt o.good r
    have hr' : r' = subRule (res h) r := by
      have h1 := Unfold.derefR_mono (le_max_left f N) e1
      rw [hN _ (le_max_right _ _)] at h1
      exact (Option.some.inj h1).symm
    subst hr'
    rw [e1] at e
    simp only [Option.some.injEq, Prod.mk.injEq, and_true] at e
    obtain ⟨rfl, rfl⟩ := e
    obtain ⟨ρ, e2, hi, _, hle⟩ := freshR_spec s.2 (subRule (res h) r)
    refine ⟨rfl, hle, ?_⟩
    have hvs : rvars (subRule (res h) r) = Unfold.unbound h V := by
      ext n
      simp only [Unfold.unbound, Finset.mem_filter, mem_rvars_sub]
      constructor
      · rintro ⟨m, hm, hv⟩
        exact ⟨o.closed m (hr hm) hv, o.good.vars_res (t := .var m) (by simpa using hv)⟩
      · rintro ⟨h1, h2⟩
        exact hc n h1 h2
    rw [T_append, T_cons, T_nil, add_zero, e2, contrib_ren hi, M_unbound o]
    · congr 1
      rw [contrib_eq hvs]
      refine isum_congr fun a => ?_
      simp only [subRule, gsub_sub, bv_sub]
    · intro θ φ hθ
      rw [gsub_congr (t := r.head) fun n hn => hθ n (hr (by simp [rvars, hn])), bv_congr (b := r.body) fun n hn => hθ n (hr (by simp [rvars, hn]))]

/-! ### Look-ups -/

/-- the continuation adds `G`, whatever has been bound -/
def Cont (v : GTm → W) (x : GTm) (r : WRule W) (V : Finset Nat) (body : List Tm → Body (List (WRule W) × Nat)) (G : (Nat → GTm) → W) : Prop :=
  ∀ ds V' h', V ⊆ V' → Ok h' V' → Solver2.Cov r h' V' → Adds v x V' h' (body ds) (M h' V' G)

open Classical in
theorem tryTy_adds {f : Nat} {V : Finset Nat} {h : Heap} (o : Ok h V) {r : WRule W} (hc : Solver2.Cov r h V) {q : Tm} (hq : vars q ⊆ V)
    (hqr : vars q ⊆ rvars r) {body : List Tm → Body (List (WRule W) × Nat)} {G : (Nat → GTm) → W}
    (hG : ∀ θ φ, (∀ n ∈ V, θ n = φ n) → G θ = G φ) (hk : Cont v x r V body G) (y : Tm) :
    Adds v x V h (tryTy f q body (y, [])) (M h V fun θ => if Inst y (gsub θ q) then G θ else 0) := by
  intro s h' s' hV e
  unfold tryTy at e
  obtain ⟨ρ, e1, hi, hb, hle⟩ := TypeAn.freshT_spec s.2 (y, [])
  have htv : TypeAn.tvars (y, []) = vars y := by simp [TypeAn.tvars]
  rw [htv] at hi hb
  set t := (freshT s.2 (y, [])).1.1 with ht
  have et : t = y.sub fun n => .var (ρ n) := by rw [ht, e1]
  have hvar : Variant y t := ⟨ρ, hi, et⟩
  have hfresh : ∀ n ∈ vars t, s.2 ≤ n ∧ n < (freshT s.2 (y, [])).2 := by
    intro n hn
    rw [et, mem_vars_sub] at hn
    obtain ⟨m, hm, hn⟩ := hn
    simp only [vars_var, Finset.mem_singleton] at hn
    subst hn
    exact hb m hm
  have hd : ∀ n ∈ vars t, n ∉ V := fun n hn hnV => absurd (hV n hnV) (by have := (hfresh n hn).1; omega)
  have o2 : Ok h (V ∪ vars t) := o.mono hd
  have hV2 : ∀ n ∈ V ∪ vars t, n < (freshT s.2 (y, [])).2 := by
    intro n hn
    rcases Finset.mem_union.1 hn with h1 | h1
    · exact (hV n h1).trans_le hle
    · exact (hfresh n h1).2
  obtain ⟨e1, e2, e3⟩ := unify_adds (F := G) o2 Finset.subset_union_right (hq.trans Finset.subset_union_left)
    (fun h' o' hn hr => hk _ _ h' Finset.subset_union_left o' (by
      have hres := (hr _).1 o'.good.respects_res
      intro n hnV hn0
      rcases Finset.mem_union.1 hnV with h1 | h1
      · exact hc.step o.good o'.good hn hres.1 n h1 hn0
      · have : n ∈ vars (t.sub (res h')) := mem_vars_sub.2 ⟨n, h1, by rw [res_unbound hn0]; simp⟩
        rw [hres.2] at this
        obtain ⟨m, hm, hv⟩ := mem_vars_sub.1 this
        exact ⟨m, hqr hm, hv⟩)) (s.1, _) _ _ hV2 e
  refine ⟨e1, hle.trans e2, ?_⟩
  rw [e3]
  congr 1
  rw [M_inst o hd hq hG]
  refine M_congr fun θ _ => ?_
  simp only [← Solver2.inst_variant hvar]

open Classical in
theorem sum_inst (S : List Tm) (z : GTm) (c : W) :
    (S.map fun s => if Inst s z then c else 0).sum = ((S.filter fun s => decide (Inst s z)).length : W) * c := by
  induction S with
  | nil => simp
  | cons s S ih =>
    by_cases hi : Inst s z
    · rw [List.filter_cons_of_pos (by simpa using hi), List.map_cons, List.sum_cons, List.length_cons, ih]
      simp [hi, add_mul, add_comm]
    · rw [List.filter_cons_of_neg (by simpa using hi), List.map_cons, List.sum_cons, ih]
      simp [hi]

open Classical in
theorem scan_adds {f : Nat} {V : Finset Nat} {h : Heap} (o : Ok h V) {r : WRule W} (hc : Solver2.Cov r h V) {q : Tm} (hq : vars q ⊆ V)
    (hqr : vars q ⊆ rvars r) {body : List Tm → Body (List (WRule W) × Nat)} {G : (Nat → GTm) → W}
    (hG : ∀ θ φ, (∀ n ∈ V, θ n = φ n) → G θ = G φ) (hk : Cont v x r V body G) (S : List Tm) :
    Adds v x V h (forEach (S.map fun s => (s, [])) (tryTy f q body))
      (M h V fun θ => ((S.filter fun s => decide (Inst s (gsub θ q))).length : W) * G θ) := by
  have := forEach_adds (v := v) (x := x) (V := V) (h := h) (b := tryTy f q body) (l := S.map fun s => ((s, []) : Ty))
    (X := fun t => M h V fun θ => if Inst t.1 (gsub θ q) then G θ else 0) (fun a ha => by
      obtain ⟨s, _, rfl⟩ := List.mem_map.1 ha
      exact tryTy_adds o hc hq hqr hG hk s)
  rw [M_list] at this
  convert this using 2
  funext θ
  rw [List.map_map, ← sum_inst]
  rfl

theorem bval_none_iff (ops : Ops) (t : Tm) : bval (W := Nat) ops t = none ↔ bval (W := W) ops t = none := by
  unfold bval
  split
  · split
    · simp
    · split <;> simp
  · simp

theorem user_hfn {ops : Ops} {s : Tm} (h : UserHead ops s) : ∃ c as, s = .app (.con c :: as) ∧ hfn s = some c ∧ ops c = none ∧ c ≠ .str "=" := by
  obtain ⟨c, as, rfl, h1, h2⟩ := h
  exact ⟨c, as, rfl, rfl, h1, h2⟩

open Classical in
/-- only the patterns with the functor of the query match -/
theorem filter_hfn {ops : Ops} {S : List Tm} (hS : ∀ s ∈ S, UserHead ops s) (c : Const) (as : List Tm) (θ : Nat → GTm) :
    ((S.filter fun s => hfn s == some c).filter fun s => decide (Inst s (gsub θ (.app (.con c :: as))))) =
      S.filter fun s => decide (Inst s (gsub θ (.app (.con c :: as)))) := by
  rw [List.filter_filter]
  refine List.filter_congr fun s hs => ?_
  by_cases hi : Inst s (gsub θ (.app (.con c :: as)))
  · obtain ⟨c', as', rfl, h1, _⟩ := user_hfn (hS s hs)
    obtain ⟨φ, hφ⟩ := hi
    have := congrArg Subtype.val hφ
    simp only [gsub, sub_app, List.map_cons, sub_con, Tm.app.injEq, List.cons.injEq, Tm.con.injEq] at this
    rw [h1, this.1]
    simp
  · simp [hi]

open Classical in
theorem lookup_adds {ops : Ops} {one : Const} {f : Nat} {V : Finset Nat} {h : Heap} (o : Ok h V) {r : WRule W} (hc : Solver2.Cov r h V) {q : Tm}
    (hcall : Callable q) (hq : vars q ⊆ V) (hqr : vars q ⊆ rvars r) {body : List Tm → Body (List (WRule W) × Nat)} {G : (Nat → GTm) → W}
    (hG : ∀ θ φ, (∀ n ∈ V, θ n = φ n) → G θ = G φ) (hk : Cont v x r V body G) {S : List Tm} (hS : ∀ s ∈ S, UserHead ops s)
    (h0 : ∀ θ, bval ops (gsub θ q).1 = some (0 : W) → G θ = 0) :
    Adds v x V h (lookupVals (plainCfg ops one) f (S.map fun s => (s, [])) q body) (M h V fun θ => (mult ops S (gsub θ q) : W) * G θ) := by
  obtain ⟨c, as, rfl⟩ := hcall
  have hgq : ∀ θ : Nat → GTm, (gsub θ (.app (.con c :: as))).1 = .app (.con c :: as.map (·.sub fun n => (θ n).1)) := fun θ => by simp [TypeAn.gsub_eq]
  have hfil : ((S.map fun s => ((s, []) : Ty)).filter fun t => hfn t.1 == some c) = (S.filter fun s => hfn s == some c).map fun s => (s, []) := by
    rw [List.filter_map]; rfl
  have hbody : ∀ ds, Adds v x V h (body ds) (M h V G) := fun ds => hk ds V h (Finset.Subset.refl _) o hc
  intro s h' s' hV e
  unfold lookupVals at e
  cases f with
  | zero => simp [snapF] at e
  | succ f =>
    simp only [snapF] at e
    split at e
    · simp at e
    · simp only [plainCfg, Unfold.isInput] at e
      rw [hfil] at e
      split at e
      · next o' a b ho =>
        have hm : ∀ θ, mult ops S (gsub θ (.app [.con c, a, b])) = 1 := by
          intro θ
          unfold mult
          rw [if_neg]
          rw [hgq]
          simp [bval, ho]
        rw [M_congr (G := G) fun θ _ => by rw [hm, Nat.cast_one, one_mul]]
        split at e
        · next a' b' g1 g2 d1 d2 =>
          split at e
          · exact hbody _ s h' s' hV e
          · next hno =>
            simp only [Option.some.injEq, Prod.mk.injEq, and_true] at e
            obtain ⟨rfl, rfl⟩ := e
            refine ⟨rfl, le_refl _, ?_⟩
            rw [M_zero, add_zero]
            intro θ hθ
            apply h0
            rw [hgq]
            have ea := TypeAn.res_ground o.good hθ g1 d1
            have eb := TypeAn.res_ground o.good hθ g2 d2
            rw [TypeAn.gsub_eq] at ea eb
            simp only [List.map_cons, List.map_nil, bval, ho, ← ea, ← eb, if_neg hno]
        · split at e
          · cases e
          · next e1 =>
            obtain ⟨rfl, k1, d1⟩ := hbody _ s _ _ hV e1
            have : (S.filter fun s => hfn s == some c) = [] := by
              rw [List.filter_eq_nil_iff]
              intro t ht
              obtain ⟨c', as', rfl, h1, h2, _⟩ := user_hfn (hS t ht)
              rw [h1]
              simp only [beq_iff_eq, Option.some.injEq]
              rintro rfl
              rw [h2] at ho
              cases ho
            rw [this] at e
            simp only [List.map_nil, forEach, Option.some.injEq, Prod.mk.injEq, and_true] at e
            obtain ⟨rfl, rfl⟩ := e
            exact ⟨rfl, k1, d1⟩
          · next r hne _ =>
            simp only [Option.some.injEq] at e
            subst e
            exact (hne _ _ rfl).elim
        · cases e
      · next as _ _ hne =>
        split at e
        · next a b _ =>
          have ho : ops (.str "=") = none := by
            cases ho : ops (.str "=") with
            | none => rfl
            | some o' => exact (hne o' a b ho rfl).elim
          have hm : ∀ θ, mult ops S (gsub θ (.app [.con (.str "="), a, b])) = 1 := by
            intro θ
            unfold mult
            rw [if_neg]
            rw [hgq]
            simp [bval, ho]
          have ha : vars a ⊆ V := fun n hn => hq (by simp [hn])
          have hb : vars b ⊆ V := fun n hn => hq (by simp [hn])
          rw [M_congr (G := fun θ => if gsub θ a = gsub θ b then G θ else 0) fun θ _ => by
            rw [hm, Nat.cast_one, one_mul]
            split
            · rfl
            · next hab =>
              apply h0
              rw [hgq]
              have : ¬ (a.sub fun n => (θ n).1) = b.sub fun n => (θ n).1 := fun h => hab (Subtype.ext h)
              simp [bval, ho, this]]
          exact unify_adds o ha hb (fun h' o' hn hr => hk _ _ h' (Finset.Subset.refl _) o'
            (hc.step o.good o'.good hn ((hr _).1 o'.good.respects_res).1)) s h' s' hV e
        · next hneq =>
          rw [hfil] at e
          have := scan_adds o hc hq hqr hG hk (S.filter fun s => hfn s == some c) s h' s' hV e
          rw [M_congr (G := fun θ => ((S.filter fun s => decide (Inst s (gsub θ (.app (.con c :: as))))).length : W) * G θ) fun θ _ => by
            by_cases hbn : bval (W := Nat) ops (gsub θ (.app (.con c :: as))).1 = none
            · unfold mult
              rw [if_pos hbn]
            · exfalso
              apply hbn
              rw [hgq]
              rcases as with _ | ⟨a, _ | ⟨b, _ | ⟨d, as⟩⟩⟩
              · rfl
              · rfl
              · have ho : ops c = none := by
                  cases ho : ops c with
                  | none => rfl
                  | some o' => exact (hne o' a b ho rfl).elim
                have hce : c ≠ .str "=" := fun hce => hneq a b hce rfl
                simp [bval, ho, hce]
              · rfl]
          rw [M_congr (F := fun θ => ((S.filter fun s => decide (Inst s (gsub θ (.app (.con c :: as))))).length : W) * G θ) fun θ _ => by
            rw [← filter_hfn hS]]
          exact this

theorem Adds.mono {V V' : Finset Nat} {h : Heap} {b : Body (List (WRule W) × Nat)} {X : W} (a : Adds v x V h b X) (hV : V ⊆ V') :
    Adds v x V' h b X := fun s h' s' hk => a s h' s' fun n hn => hk n (hV hn)

theorem Adds.congr {V : Finset Nat} {h : Heap} {b : Body (List (WRule W) × Nat)} {X Y : W} (a : Adds v x V h b X) (e : X = Y) : Adds v x V h b Y := e ▸ a

theorem join_adds {ops : Ops} {one : Const} {f : Nat} {r : WRule W} {S : List Tm} (hS : ∀ s ∈ S, UserHead ops s) : ∀ {qs : List Tm} {V : Finset Nat} {h : Heap}
    (_ : Ok h V) (_ : Solver2.Cov r h V) (_ : ∀ q ∈ qs, Callable q ∧ vars q ⊆ V ∧ vars q ⊆ rvars r)
    {body : List Tm → Body (List (WRule W) × Nat)} {G : (Nat → GTm) → W} (_ : ∀ θ φ, (∀ n ∈ V, θ n = φ n) → G θ = G φ) (_ : Cont v x r V body G)
    (_ : ∀ q ∈ qs, ∀ θ, bval ops (gsub θ q).1 = some (0 : W) → G θ = 0),
    Adds v x V h (join (plainCfg ops one) f (S.map fun s => (s, [])) qs body)
      (M h V fun θ => (((qs.map fun q => mult ops S (gsub θ q)).prod : Nat) : W) * G θ)
  | [], V, h, o, hc, _, body, G, hG, hk, _ => by
    rw [M_congr (G := G) fun θ _ => by simp]
    exact hk [] V h (Finset.Subset.refl _) o hc
  | q :: qs, V, h, o, hc, hq, body, G, hG, hk, h0 => by
    have hcong : ∀ V', V ⊆ V' → ∀ θ φ : Nat → GTm, (∀ n ∈ V', θ n = φ n) → (qs.map fun q => mult ops S (gsub θ q)) = qs.map fun q => mult ops S (gsub φ q) := by
      intro V' hV θ φ hθ
      refine List.map_congr_left fun q' hq' => ?_
      rw [gsub_congr (t := q') fun n hn => hθ n (hV ((hq q' (by simp [hq'])).2.1 hn))]
    rw [M_congr (G := fun θ => (mult ops S (gsub θ q) : W) * ((((qs.map fun q => mult ops S (gsub θ q)).prod : Nat) : W) * G θ)) fun θ _ => by
      rw [List.map_cons, List.prod_cons, Nat.cast_mul, mul_assoc]]
    refine lookup_adds o hc (hq q (by simp)).1 (hq q (by simp)).2.1 (hq q (by simp)).2.2 (fun θ φ hθ => ?_) (fun ds V' h' hV o' hc' => ?_) hS fun θ hb => ?_
    · rw [hcong V (Finset.Subset.refl _) θ φ hθ, hG θ φ hθ]
    · refine join_adds hS o' hc' (fun q' hq' => ?_) (fun θ φ hθ => hG θ φ fun n hn => hθ n (hV hn))
        (fun es V2 h2 hV2 o2 hc2 => hk _ V2 h2 (hV.trans hV2) o2 hc2) fun q' hq' => h0 q' (by simp [hq'])
      have := hq q' (by simp [hq'])
      exact ⟨this.1, this.2.1.trans hV, this.2.2⟩
    · rw [h0 q (by simp) θ hb, mul_zero]

omit [CSemi W] in
theorem mem_subgoals {b : List (Lit W)} {t : Tm} : t ∈ subgoals b ↔ .sub t ∈ b := by
  unfold subgoals
  rw [List.mem_filterMap]
  constructor
  · rintro ⟨l, hl, e⟩
    cases l with
    | val _ => cases e
    | sub u =>
      simp only [Option.some.injEq] at e
      exact e ▸ hl
  · intro h
    exact ⟨_, h, rfl⟩

open Classical in
/-- what the instances of a rule contribute if each counts as often as its head and subgoals are matched -/
noncomputable def weighted (ops : Ops) (S : List Tm) (v : GTm → W) (x : GTm) (r : WRule W) : W :=
  isum fun a : Asg (rvars r) => if gsub (ext a) r.head = x then
    (((r.head :: subgoals r.body).map fun t => mult ops S (gsub (ext a) t)).prod : Nat) * bv v (ext a) r.body else 0

/-- **C67, one step of the specialized program.**  For every table of values (in which false builtins are zero): every
instance of a rule contributes once for every choice of patterns that its head and its subgoals are instances of. -/
theorem C67_step {ops : Ops} {one : Const} {f k : Nat} {S : List Tm} (hS : ∀ s ∈ S, UserHead ops s) {p : List (WRule W)} (hp : ∀ r ∈ p, POk ops k r)
    {q : List (WRule W)} {k' : Nat} (e : specRules ops one f k S p = some (q, k')) {v : GTm → W} (hv : BZero ops v) (x : GTm) :
    T q v x = (p.map (weighted ops S v x)).sum := by
  classical
  unfold specRules at e
  split at e
  · next h' s e1 =>
    simp only [Option.some.injEq] at e
    subst e
    have := forEach_adds (v := v) (x := x) (V := Finset.range k) (h := noHeap) (l := p) (X := weighted ops S v x) (fun r hr => by
      have hrp := hp r hr
      have hc : Solver2.Cov r noHeap (rvars r) := fun n hn _ => ⟨n, hn, by rw [res_unbound rfl]; simp⟩
      have hb : ∀ t, .sub t ∈ r.body → vars t ⊆ rvars r := fun t ht => (TypeAn.sub_vars ht).trans Finset.subset_union_right
      have hG : ∀ θ φ : Nat → GTm, (∀ n ∈ rvars r, θ n = φ n) →
          (if gsub θ r.head = x then bv v θ r.body else 0) = if gsub φ r.head = x then bv v φ r.body else 0 := by
        intro θ φ hθ
        rw [gsub_congr (t := r.head) fun n hn => hθ n (by simp [rvars, hn]), bv_congr (b := r.body) fun n hn => hθ n (by simp [rvars, hn])]
      have := join_adds (v := v) (x := x) (ops := ops) (one := one) (f := f) (r := r) hS (qs := r.head :: subgoals r.body) (ok_noHeap (rvars r)) hc
        (fun t ht => by
          rcases List.mem_cons.1 ht with rfl | ht
          · obtain ⟨c, as, e, _⟩ := hrp.user
            exact ⟨⟨c, as, e⟩, Finset.subset_union_left, Finset.subset_union_left⟩
          · have ht := mem_subgoals.1 ht
            exact ⟨hrp.call t ht, hb t ht, hb t ht⟩)
        (body := fun _ => emit f r) (G := fun θ => if gsub θ r.head = x then bv v θ r.body else 0) hG
        (fun ds V' h' hV o' hc' => emit_adds o' hV hc')
        (fun t ht θ hbv => by
          rcases List.mem_cons.1 ht with rfl | ht
          · obtain ⟨c, as, e, h1, h2⟩ := hrp.user
            rw [e] at hbv
            simp only [gsub, sub_app, List.map_cons, sub_con] at hbv
            rw [Solver2.bval_none h2 fun o a b ho _ => by rw [h1] at ho; cases ho] at hbv
            cases hbv
          · have ht := mem_subgoals.1 ht
            rw [Prune.bv_zero ht (hv _ hbv)]
            simp)
      rw [M_noHeap] at this
      refine (this.mono fun n hn => Finset.mem_range.2 (hrp.vs n hn)).congr ?_
      unfold weighted
      refine isum_congr fun a => ?_
      split <;> simp) ([], k) h' (q, k') (fun n hn => Finset.mem_range.1 hn) e1
    simpa [T_nil] using this.2.2
  · cases e

/-! ### Values -/

/-- no item is an instance of two patterns -/
def Apart (S : List Tm) : Prop := S.Pairwise fun s t => ∀ z, ¬ (Inst s z ∧ Inst t z)

theorem count_one {S : List Tm} (hS : Apart S) {s : Tm} (hs : s ∈ S) {y : GTm} (hi : Inst s y) [DecidablePred fun s => Inst s y] :
    (S.filter fun s => decide (Inst s y)).length = 1 := by
  induction S with
  | nil => simp at hs
  | cons t S ih =>
    obtain ⟨h1, h2⟩ := List.pairwise_cons.1 hS
    rcases List.mem_cons.1 hs with rfl | hs
    · rw [List.filter_cons_of_pos (by simpa using hi), List.length_cons]
      have : (S.filter fun s => decide (Inst s y)) = [] := by
        rw [List.filter_eq_nil_iff]
        intro t ht
        simpa using fun h => h1 t ht y ⟨hi, h⟩
      rw [this]; rfl
    · rw [List.filter_cons_of_neg (by simpa using fun h => h1 s hs y ⟨h, hi⟩)]
      exact ih h2 hs

theorem idem_cast (h : (1 : W) + 1 = 1) : ∀ n : Nat, ((n + 1 : Nat) : W) = 1
  | 0 => by simp
  | n + 1 => by rw [Nat.cast_add, idem_cast h n, Nat.cast_one, h]

theorem mult_one {ops : Ops} {S : List Tm} (hd : Apart S ∨ (1 : W) + 1 = 1) {y : GTm}
    (h : bval (W := W) ops y.1 ≠ none ∨ ∃ s ∈ S, Inst s y) : (mult ops S y : W) = 1 := by
  classical
  unfold mult
  split
  · next hb =>
    rcases h with h | ⟨s, hs, hi⟩
    · exact (h ((bval_none_iff ops y.1).1 hb)).elim
    · rcases hd with hd | hd
      · rw [count_one hd hs hi, Nat.cast_one]
      · have : 0 < (S.filter fun s => decide (Inst s y)).length := List.length_pos_of_mem (List.mem_filter.2 ⟨hs, by simpa using hi⟩)
        obtain ⟨n, hn⟩ := Nat.exists_eq_succ_of_ne_zero this.ne'
        rw [hn]
        exact idem_cast hd n
  · simp

theorem prod_one : ∀ {l : List Nat}, (∀ n ∈ l, (n : W) = 1) → ((l.prod : Nat) : W) = 1
  | [], _ => by simp
  | n :: l, h => by rw [List.prod_cons, Nat.cast_mul, h n (by simp), prod_one fun m hm => h m (by simp [hm]), one_mul]

theorem user_bval {ops : Ops} {t : Tm} (h : UserHead ops t) (θ : Nat → GTm) : bval (W := W) ops (gsub θ t).1 = none := by
  obtain ⟨c, as, rfl, h1, h2⟩ := h
  simp only [gsub, sub_app, List.map_cons, sub_con]
  exact Solver2.bval_none h2 fun o a b ho _ => by rw [h1] at ho; cases ho

theorem weighted_zero {ops : Ops} {S : List Tm} {v : GTm → W} {x : GTm} {r : WRule W}
    (h : ∀ θ, gsub θ r.head = x → ∃ t, .sub t ∈ r.body ∧ v (gsub θ t) = 0) : weighted ops S v x r = 0 := by
  unfold weighted
  refine (isum_congr fun a => ?_).trans isum_zero
  split
  · next he =>
    obtain ⟨t, ht, h0⟩ := h _ he
    rw [Prune.bv_zero ht h0, mul_zero]
  · rfl

theorem sum_zero {l : List (WRule W)} {F : WRule W → W} (h : ∀ r ∈ l, F r = 0) : (l.map F).sum = 0 :=
  List.sum_eq_zero fun y hy => by
    obtain ⟨r, hr, rfl⟩ := List.mem_map.1 hy
    exact h r hr

section
variable {ops : Ops} {one : Const} {f k k' : Nat} {S : List Tm} {p q : List (WRule W)} {d : GTm → W} {Der U : GTm → Prop}
  (hS : ∀ s ∈ S, UserHead ops s) (hp : ∀ r ∈ p, POk ops k r) (e : specRules ops one f k S p = some (q, k')) (hdb : BZero ops d)
include hS hp e hdb

theorem bzero_rounds : ∀ n, BZero ops (rounds q d n)
  | 0 => fun _ _ => rfl
  | n + 1 => fun y hy => by
    show d y + T q (rounds q d n) y = 0
    rw [hdb y hy, C67_step hS hp e (bzero_rounds n), zero_add]
    refine sum_zero fun r hr => ?_
    unfold weighted
    refine (isum_congr fun a => if_neg ?_).trans isum_zero
    rintro rfl
    rw [user_bval (hp r hr).user] at hy
    cases hy

variable (hd : ∀ x, d x ≠ 0 → Der x) (hder : ∀ r ∈ p, ∀ θ, (∀ t, Lit.sub t ∈ r.body → Der (gsub θ t)) → Der (gsub θ r.head))
include hd hder

theorem zero_rounds : ∀ n x, ¬ Der x → rounds q d n x = 0
  | 0, _, _ => rfl
  | n + 1, x, hx => by
    show d x + T q (rounds q d n) x = 0
    have h1 : d x = 0 := by
      by_contra h; exact hx (hd x h)
    rw [h1, C67_step hS hp e (bzero_rounds hS hp e hdb n), zero_add]
    refine sum_zero fun r hr => weighted_zero fun θ hθ => ?_
    have : ¬ ∀ t, Lit.sub t ∈ r.body → Der (gsub θ t) := fun h => hx (hθ ▸ hder r hr θ h)
    push Not at this
    obtain ⟨t, ht, h4⟩ := this
    exact ⟨t, ht, zero_rounds n _ h4⟩

/-- if the head and the subgoals of every derivable rule instance below an item of `U` are matched, the items of `U`
keep their values -/
theorem spec_values (hdis : Apart S ∨ (1 : W) + 1 = 1)
    (hU : ∀ r ∈ p, ∀ θ, U (gsub θ r.head) → (∀ t, Lit.sub t ∈ r.body → Der (gsub θ t)) →
      (∃ s ∈ S, Inst s (gsub θ r.head)) ∧ ∀ t, Lit.sub t ∈ r.body → U (gsub θ t) ∧ (bval (W := W) ops (gsub θ t).1 ≠ none ∨ ∃ s ∈ S, Inst s (gsub θ t))) :
    ∀ n x, U x → rounds q d n x = rounds p d n x
  | 0, _, _ => rfl
  | n + 1, x, hx => by
    show d x + T q (rounds q d n) x = d x + T p (rounds p d n) x
    rw [C67_step hS hp e (bzero_rounds hS hp e hdb n)]
    congr 1
    unfold T
    congr 1
    refine List.map_congr_left fun r hr => ?_
    unfold weighted contrib
    refine isum_congr fun a => ?_
    split
    · next he =>
      by_cases h : ∀ t, Lit.sub t ∈ r.body → Der (gsub (ext a) t)
      · obtain ⟨h1, h2⟩ := hU r hr _ (he ▸ hx) h
        rw [prod_one, one_mul]
        · exact Prune.bv_same fun t ht => spec_values hdis hU n _ (h2 t ht).1
        · intro m hm
          obtain ⟨t, ht, rfl⟩ := List.mem_map.1 hm
          rcases List.mem_cons.1 ht with rfl | ht
          · exact mult_one hdis (.inr h1)
          · exact mult_one hdis (h2 t (mem_subgoals.1 ht)).2
      · push Not at h
        obtain ⟨t, h3, h4⟩ := h
        rw [Prune.bv_zero h3 (zero_rounds hS hp e hdb hd hder n _ h4), Prune.bv_zero h3 (Prune.rounds_zero hd hder (fun r hr => hr) n _ h4), mul_zero]
    · rfl

end

/-! ### The patterns -/

/-- the merged term of two unifiable terms has their functor -/
theorem gen_user {ops : Ops} {fv : Nat → Nat} {m : Nat} {r t : Tm} (hr : UserHead ops r) (ht : UserHead ops t) (h : ∃ θ, r.sub θ = t.sub θ) :
    UserHead ops (generalizer fv m r t).1 := by
  obtain ⟨c, as, rfl, h1, h2⟩ := hr
  obtain ⟨c', bs, rfl, -, -⟩ := ht
  obtain ⟨θ, e⟩ := h
  simp only [sub_app, List.map_cons, sub_con, Tm.app.injEq, List.cons.injEq, Tm.con.injEq] at e
  obtain ⟨rfl, e⟩ := e
  have hl : as.length = bs.length := by simpa using congrArg List.length e
  unfold generalizer
  simp only
  rw [traverse]
  split
  · exact ⟨c, as, rfl, h1, h2⟩
  · simp only [List.length_cons, hl, List.head?_cons, and_self, if_true, traverseL, traverse]
    exact ⟨c, _, rfl, h1, h2⟩

theorem scan_user {ops : Ops} {fv : Nat → Nat} (hfv : Function.Injective fv) {f : Nat} : ∀ {rev : List Tm} {r : Tm} {m : Nat} {keep : List Tm} {r' : Tm} {m' : Nat},
    (∀ s ∈ rev, UserHead ops s) → UserHead ops r → DisjointEst.scan fv f rev r m = some (keep, r', m') → UserHead ops r' ∧ ∀ s ∈ keep, UserHead ops s
  | [], r, m, keep, r', m', _, hr, e => by
    simp only [DisjointEst.scan, Option.some.injEq, Prod.mk.injEq] at e
    obtain ⟨rfl, rfl, rfl⟩ := e
    exact ⟨hr, by simp⟩
  | t :: rev, r, m, keep, r', m', hv, hr, e => by
    rw [DisjointEst.scan] at e
    cases h1 : Heap.unifiesF f r t (fun _ => none) with
    | none => simp [h1] at e
    | some b =>
      cases b with
      | true =>
        simp only [h1] at e
        have hu := (DisjointEst.empty_unifies h1).1 rfl
        have hg := gen_user (fv := fv) (m := m) hr (hv t (by simp)) hu
        exact scan_user hfv (fun s hs => hv s (by simp [hs])) (Solver2.user_variant hg (freshV_spec hfv _ _).1) e
      | false =>
        simp only [h1] at e
        cases h2 : DisjointEst.scan fv f rev r m with
        | none => simp [h2] at e
        | some q =>
          obtain ⟨keep1, r1, k1⟩ := q
          simp only [h2, Option.some.injEq, Prod.mk.injEq] at e
          obtain ⟨rfl, rfl, rfl⟩ := e
          obtain ⟨j1, j2⟩ := scan_user hfv (fun s hs => hv s (by simp [hs])) hr h2
          refine ⟨j1, fun s hs => ?_⟩
          rcases List.mem_append.1 hs with hs | hs
          · exact j2 s hs
          · simp only [List.mem_singleton] at hs
            exact hs ▸ hv t (by simp)

theorem addAll_user {ops : Ops} {fv cv : Nat → Nat} (hfv : Function.Injective fv) (hcv : Function.Injective cv) {f : Nat} : ∀ {ts : List Tm} {S S' : TSet},
    (∀ t ∈ ts, UserHead ops t) → (∀ s ∈ S.xs, UserHead ops s) → addAll (DisjointEst.add fv cv f) S ts = some S' → ∀ s ∈ S'.xs, UserHead ops s
  | [], S, S', _, hS, e => by
    simp only [addAll, Option.some.injEq] at e
    exact e ▸ hS
  | t :: ts, S, S', ht, hS, e => by
    rw [addAll] at e
    cases h1 : DisjointEst.add fv cv f S t with
    | none => simp [h1] at e
    | some S1 =>
      simp only [h1] at e
      refine addAll_user hfv hcv (fun t h => ht t (by simp [h])) ?_ e
      unfold DisjointEst.add at h1
      simp only at h1
      cases h2 : DisjointEst.scan fv f S.xs.reverse (freshV fv S.k t).1 (freshV fv S.k t).2 with
      | none => simp [h2] at h1
      | some q =>
        obtain ⟨keep, r', m'⟩ := q
        simp only [h2, Option.some.injEq] at h1
        subst h1
        obtain ⟨j1, j2⟩ := scan_user hfv (fun s hs => hS s (by simpa using hs)) (Solver2.user_variant (ht t (by simp)) (freshV_spec hfv _ _).1) h2
        intro s hs
        rcases List.mem_append.1 hs with hs | hs
        · exact j2 s hs
        · simp only [List.mem_singleton] at hs
          exact hs ▸ Solver2.user_variant j1 (canonP_variant hcv r')

/-- what is in a type of the chart is an instance of a pattern -/
theorem covered {I : Set Tm} {fv cv : Nat → Nat} (hfv : Function.Injective fv) (hcv : Function.Injective cv) (hsep : ∀ i j, fv i ≠ cv j) {f m : Nat} {ch : List Ty}
    (hn : ∀ t ∈ ch, Order.Named t.1) {D : TSet} (e : addAll (DisjointEst.add fv cv f) ⟨[], m⟩ (ch.map Prod.fst) = some D) {x : GTm}
    (hx : x.1 ∈ TypeAn.Cover I ch) : ∃ s ∈ D.xs, Inst s x := by
  obtain ⟨t, ht, hd⟩ := hx
  obtain ⟨σ, _, ex⟩ := TypeAn.mem_den.1 hd
  obtain ⟨s, hs, τ, hi⟩ := DisjointEst.C13_covers hfv hcv hsep (fun t ht => by
    obtain ⟨u, hu, rfl⟩ := List.mem_map.1 ht
    exact hn u hu) e t.1 (List.mem_map_of_mem ht)
  refine ⟨s, hs, fun n => gsub σ (τ n), ?_⟩
  rw [← gsub_sub, hi]
  exact Subtype.ext ex.symm

/-! ### `prune` -/

/-- What is assumed of a call of `prune`: the assumptions of the type analysis (C61), for the analyzed rules; no
subgoal of the program has the functor of a type parameter; the data are described by the input type. -/
structure Setup (mode : Mode W) (g : Cfg) (I : Set Tm) (L : Finset Nat) (k : Nat) (p Ti : List (WRule W)) (d : GTm → W) : Prop where
  world : TypeAn.World g I
  sound : TypeAn.Sound g I L
  names : ∀ t ∈ g.inputs, vars t ⊆ L
  depth : 0 < g.D
  low : ∀ n ∈ L, n < k
  rules : ∀ r ∈ analyzed mode p Ti, TypeAn.WOk g L k r
  params : ∀ r ∈ p, ∀ t, .sub t ∈ r.body → ∀ i ∈ g.inputs, hfn i ≠ hfn t
  data : ∀ x, d x ≠ 0 → x.1 ∈ I ∨ TypeAn.Derives (p ++ Ti) I x.1

theorem sub_analyzed {mode : Mode W} {p Ti : List (WRule W)} {r : WRule W} (h : r ∈ p ++ Ti) : r ∈ analyzed mode p Ti := by
  cases mode with
  | bottomUp => exact h
  | useful sig outs =>
    simp only [analyzed, Magic.useful, List.mem_append] at h ⊢
    tauto

theorem derives_mono {I : Set Tm} {p q : List (WRule W)} (h : ∀ r ∈ p, r ∈ q) {x : Tm} (hx : TypeAn.Derives p I x) : TypeAn.Derives q I x := by
  induction hx with
  | rule θ hr _ ih => exact .rule θ (h _ hr) ih

section
variable {mode : Mode W} {g : Cfg} {I : Set Tm} {L : Finset Nat} {k : Nat} {p Ti : List (WRule W)} {d : GTm → W}

theorem Setup.wok (su : Setup mode g I L k p Ti d) {r : WRule W} (hr : r ∈ p) : TypeAn.WOk g L k r := su.rules r (sub_analyzed (by simp [hr]))

theorem Setup.pok (su : Setup mode g I L k p Ti d) {k1 : Nat} (hk : k ≤ k1) : ∀ r ∈ p, POk g.ops k1 r := fun r hr =>
  ⟨fun n hn => ((su.wok hr).vs n hn).2.trans_le hk, by
    obtain ⟨c, as, e, h1, h2, _⟩ := (su.wok hr).user
    exact ⟨c, as, e, h1, h2⟩, (su.wok hr).call⟩

/-- a subgoal that holds without a rule is a builtin -/
theorem Setup.builtin (su : Setup mode g I L k p Ti d) {r : WRule W} (hr : r ∈ p) {t : Tm} (ht : .sub t ∈ r.body) {θ : Nat → GTm} (h : (gsub θ t).1 ∈ I) :
    bval (W := W) g.ops (gsub θ t).1 ≠ none := by
  obtain ⟨c, as, rfl⟩ := (su.wok hr).call t ht
  simp only [gsub, sub_app, List.map_cons, sub_con] at h ⊢
  have key : ∀ h2 : as.length = 2, (g.ops c ≠ none ∨ c = .str "=") → bval (W := W) g.ops (.app (.con c :: as.map fun t => t.sub fun n => (θ n).1)) ≠ none := by
    intro h2 hc
    obtain ⟨a, b, rfl⟩ := List.length_eq_two.1 h2
    simp only [List.map_cons, List.map_nil, bval]
    cases ho : g.ops c with
    | some o => simp
    | none => simp [hc.resolve_left (fun h => h ho)]
  rcases su.world.input c _ h with ⟨h1, h2⟩ | ⟨h1, h2⟩ | ⟨i, hi, σ, he⟩
  · exact key (by simpa using h2) (.inr h1)
  · exact key (by simpa using h2) (.inl h1)
  · obtain ⟨c', as', rfl⟩ := su.world.heads i hi
    simp only [sub_app, List.map_cons, sub_con, Tm.app.injEq, List.cons.injEq, Tm.con.injEq] at he
    exact (su.params r hr _ ht _ hi (by simp [hfn, he.1])).elim

theorem Setup.bzero (su : Setup mode g I L k p Ti d) : BZero g.ops d := by
  intro y hy
  by_contra hne
  have h10 : (1 : W) ≠ 0 := fun h => hne (by rw [← one_mul (d y), h, zero_mul])
  rcases su.data y hne with h | h
  · obtain ⟨y, hy0⟩ := y
    simp only at h hy
    unfold bval at hy
    split at hy
    · next c a b =>
      split at hy
      · next o ho =>
        simp [su.world.ops c o a b ho h, h10] at hy
      · split at hy
        · next hc =>
          subst hc
          simp [su.world.eq a b h, h10] at hy
        · cases hy
    · cases hy
  · generalize hz : y.1 = z at h
    cases h with
    | @rule r θ hr _ =>
      obtain ⟨c, as, e, h1, h2, _⟩ := (su.rules r (sub_analyzed hr)).user
      rw [hz, user_bval ⟨c, as, e, h1, h2⟩] at hy
      cases hy

/-- derivable, or a constraint that holds -/
def Der (I : Set Tm) (p : List (WRule W)) (x : GTm) : Prop := x.1 ∈ I ∨ TypeAn.Derives p I x.1

theorem der_step {r : WRule W} (hr : r ∈ p) {θ : Nat → GTm} (h : ∀ t, Lit.sub t ∈ r.body → Der I (p ++ Ti) (gsub θ t)) :
    TypeAn.Derives (p ++ Ti) I (gsub θ r.head).1 :=
  .rule θ (by simp [hr]) fun t ht hI => (h t ht).resolve_left hI

theorem Setup.closed (su : Setup mode g I L k p Ti d) {f n : Nat} {ch : List Ty} {k1 : Nat}
    (e : TypeAn.runBasic { g with rules := TypeAn.toTypeProgram (analyzed mode p Ti) } f n k = some (ch, k1)) :
    k ≤ k1 ∧ (∀ t ∈ ch, TypeAn.User g t.1) ∧ ∀ x, TypeAn.Derives (analyzed mode p Ti) I x → x ∈ TypeAn.Cover I ch := by
  have Wd : TypeAn.World { g with rules := TypeAn.toTypeProgram (analyzed mode p Ti) } I :=
    ⟨su.world.heads, su.world.eq, su.world.ops, su.world.con, su.world.free, su.world.input⟩
  obtain ⟨h1, h2, hc⟩ := TypeAn.runBasic_closed (L := L) Wd su.names ⟨su.sound.sup, su.sound.none, su.sound.fn, su.sound.cov⟩ su.depth su.low (le_refl _) (fun r hr => by
    obtain ⟨r0, hr0, rfl⟩ := List.mem_map.1 hr
    have := su.rules r0 hr0
    exact TypeAn.WOk.bool ⟨this.vs, this.user, this.call⟩) e
  exact ⟨h1, fun t ht => (h2 t ht).2, fun x hx => TypeAn.closed_derives Wd rfl hc hx⟩

/-- the patterns of the chart can be merged: no functor is a variable; and the merged patterns have no common instance,
or addition is idempotent -/
def Patterns (W : Type) [CSemi W] (fv cv : Nat → Nat) (f m : Nat) (ch : List Ty) : Prop :=
  (∀ t ∈ ch, Order.Named t.1) ∧ ∀ D, addAll (DisjointEst.add fv cv f) ⟨[], m⟩ (ch.map Prod.fst) = some D → Apart D.xs ∨ (1 : W) + 1 = 1

theorem user_head {g : Cfg} {t : Tm} (h : TypeAn.User g t) : UserHead g.ops t := by
  obtain ⟨c, as, e, h1, h2, _⟩ := h
  exact ⟨c, as, e, h1, h2⟩

/-- **C67, `prune(bottom_up_only=True)`.**  Every item of the specialized program has the value it had, in every round,
if the merged patterns of the chart have no common instance (or addition is idempotent). -/
theorem C67_bottom_up (su : Setup .bottomUp g I L k p Ti d) {fv cv : Nat → Nat} (hfv : Function.Injective fv) (hcv : Function.Injective cv)
    (hsep : ∀ i j, fv i ≠ cv j) {f n m : Nat} (hch : ∀ ch k1, chart .bottomUp g f n k p Ti = some (ch, k1) → Patterns W fv cv f m ch)
    {q : List (WRule W)} {k2 : Nat} (e : pruneSpec .bottomUp g fv cv f n m k p Ti = some (q, k2)) (i : Nat) (x : GTm) :
    rounds q d i x = rounds p d i x := by
  unfold pruneSpec at e
  split at e
  · cases e
  next ch k1 e1 =>
  obtain ⟨hn, hap⟩ := hch ch k1 e1
  unfold chart at e1
  split at e1
  · cases e1
  next ch' k1' e2 =>
  simp only [Option.some.injEq, Prod.mk.injEq] at e1
  obtain ⟨rfl, rfl⟩ := e1
  obtain ⟨hk, hu, hcl⟩ := su.closed e2
  unfold pruneSpecialize at e
  split at e
  · cases e
  next D eD =>
  have hcov : ∀ {y : GTm}, TypeAn.Derives (p ++ Ti) I y.1 → ∃ s ∈ D.xs, Inst s y := fun h => covered hfv hcv hsep hn eD (hcl _ h)
  refine spec_values (Der := Der I (p ++ Ti)) (U := fun _ => True) (addAll_user hfv hcv (fun t ht => ?_) (by simp) eD) (su.pok hk) e su.bzero su.data
    (fun r hr θ h => .inr (der_step hr h)) (hap D eD) (fun r hr θ _ h => ⟨hcov (der_step hr h), fun t ht => ⟨trivial, ?_⟩⟩) i x trivial
  · obtain ⟨u, hu', rfl⟩ := List.mem_map.1 ht
    exact user_head (hu u hu')
  · rcases h t ht with h | h
    · exact .inl (su.builtin hr ht h)
    · exact .inr (hcov h)

/-- the item matches a declared output whose conditions can be derived -/
def IsOut (I : Set Tm) (p outs : List (WRule W)) (x : GTm) : Prop :=
  ∃ o ∈ outs, ∃ θ, gsub θ o.head = x ∧ ∀ t, .sub t ∈ o.body → Der I p (gsub θ t)

/-- the signatures only have operators and `=` -/
def SigOk (ops : Ops) (sig : Linearize.Sigs) : Prop := ∀ c n, sig c n = true → n = 2 ∧ (ops c ≠ none ∨ c = .str "=")

theorem sig_bval {ops : Ops} {sig : Linearize.Sigs} (h : SigOk ops sig) {t : Tm} (ht : Callable t) (hb : Linearize.isBuiltin sig t = true) (θ : Nat → GTm) :
    bval (W := W) ops (gsub θ t).1 ≠ none := by
  obtain ⟨c, as, rfl⟩ := ht
  obtain ⟨h2, hc⟩ := h c as.length hb
  obtain ⟨a, b, rfl⟩ := List.length_eq_two.1 h2
  simp only [gsub, sub_app, List.map_cons, sub_con, List.map_nil, bval]
  cases ho : ops c with
  | some o => simp
  | none => simp [hc.resolve_left (fun h => h ho)]

theorem mem_usefulTypes {ch : List Ty} (hu : ∀ t ∈ ch, TypeAn.User g t.1) {x : GTm} (h : (Magic.wrap Magic.uf x).1 ∈ TypeAn.Cover I ch) :
    x.1 ∈ TypeAn.Cover I (usefulTypes ch) := by
  obtain ⟨t, ht, hd⟩ := h
  obtain ⟨σ, hI, e⟩ := TypeAn.mem_den.1 hd
  obtain ⟨hd', b⟩ := t
  obtain ⟨c, as, rfl, -⟩ := hu _ ht
  simp only [Magic.wrap, Magic.magicT, TypeAn.gsub_eq, sub_app, List.map_cons, sub_con, Tm.app.injEq, List.cons.injEq, Tm.con.injEq] at e
  obtain ⟨rfl, e⟩ := e
  rcases as with _ | ⟨y, _ | ⟨z, as⟩⟩
  · simp at e
  · refine ⟨(y, b), List.mem_filterMap.2 ⟨_, ht, rfl⟩, TypeAn.mem_den.2 ⟨σ, hI, ?_⟩⟩
    simpa [TypeAn.gsub_eq] using e
  · simp at e

section
variable {sig : Linearize.Sigs} {outs : List (WRule W)}

/-- the useful items: the arguments of `$useful` that can be derived -/
def Use (sig : Linearize.Sigs) (outs : List (WRule W)) (I : Set Tm) (p Ti : List (WRule W)) (x : GTm) : Prop :=
  TypeAn.Derives (analyzed (.useful sig outs) p Ti) I (Magic.wrap Magic.uf x).1

theorem use_out {x : GTm} (h : IsOut I (p ++ Ti) outs x) (hx : Der I (p ++ Ti) x) : Use sig outs I p Ti x := by
  obtain ⟨o, ho, θ, rfl, hb⟩ := h
  have hr : (⟨Magic.magicT Magic.uf o.head, .sub o.head :: o.body⟩ : WRule W) ∈ analyzed (.useful sig outs) p Ti :=
    List.mem_append_left _ (Magic.mem_useful.2 (.out ho))
  have := TypeAn.Derives.rule (I := I) θ hr fun t ht hI => by
    rcases List.mem_cons.1 ht with ht | ht
    · simp only [Lit.sub.injEq] at ht
      subst ht
      exact derives_mono (fun r => sub_analyzed) (hx.resolve_left hI)
    · exact derives_mono (fun r => sub_analyzed) ((hb t ht).resolve_left hI)
  simpa [Use, Magic.wrap, Magic.magicT, TypeAn.gsub_eq] using this

theorem use_body {r : WRule W} (hr : r ∈ p) {θ : Nat → GTm} (hh : Use sig outs I p Ti (gsub θ r.head)) (hb : ∀ t, Lit.sub t ∈ r.body → Der I (p ++ Ti) (gsub θ t))
    {t : Tm} (ht : .sub t ∈ r.body) (hs : Linearize.isBuiltin sig t = false) : Use sig outs I p Ti (gsub θ t) := by
  have hr : (⟨Magic.magicT Magic.uf t, .sub (Magic.magicT Magic.uf r.head) :: r.body⟩ : WRule W) ∈ analyzed (.useful sig outs) p Ti :=
    List.mem_append_left _ (Magic.mem_useful.2 (.use hr ht hs))
  have := TypeAn.Derives.rule (I := I) θ hr fun u hu hI => by
    rcases List.mem_cons.1 hu with hu | hu
    · simp only [Lit.sub.injEq] at hu
      subst hu
      simpa [Use, Magic.wrap, Magic.magicT, TypeAn.gsub_eq] using hh
    · exact derives_mono (fun r => sub_analyzed) ((hb u hu).resolve_left hI)
  simpa [Use, Magic.wrap, Magic.magicT, TypeAn.gsub_eq] using this

/-- **C67, `prune()`.**  Every declared output of the specialized program has the value it had, in every round. -/
theorem C67_useful (su : Setup (.useful sig outs) g I L k p Ti d) (hsig : SigOk g.ops sig) {fv cv : Nat → Nat} (hfv : Function.Injective fv)
    (hcv : Function.Injective cv) (hsep : ∀ i j, fv i ≠ cv j) {f n m : Nat}
    (hch : ∀ ch k1, chart (.useful sig outs) g f n k p Ti = some (ch, k1) → Patterns W fv cv f m ch ∧ ∀ t ∈ ch, TypeAn.User g t.1)
    {q : List (WRule W)} {k2 : Nat} (e : pruneSpec (.useful sig outs) g fv cv f n m k p Ti = some (q, k2)) (i : Nat) {x : GTm}
    (hx : IsOut I (p ++ Ti) outs x) : rounds q d i x = rounds p d i x := by
  unfold pruneSpec at e
  split at e
  · cases e
  next ch k1 e1 =>
  obtain ⟨⟨hn, hap⟩, huu⟩ := hch ch k1 e1
  unfold chart at e1
  split at e1
  · cases e1
  next ch' k1' e2 =>
  simp only [Option.some.injEq, Prod.mk.injEq] at e1
  obtain ⟨rfl, rfl⟩ := e1
  obtain ⟨hk, hu, hcl⟩ := su.closed e2
  unfold pruneSpecialize at e
  split at e
  · cases e
  next D eD =>
  have hcov : ∀ {y : GTm}, Use sig outs I p Ti y → ∃ s ∈ D.xs, Inst s y := fun h => covered hfv hcv hsep hn eD (mem_usefulTypes hu (hcl _ h))
  have hS : ∀ s ∈ D.xs, UserHead g.ops s := addAll_user hfv hcv (fun t ht => by
    obtain ⟨u, hu', rfl⟩ := List.mem_map.1 ht
    exact user_head (huu u hu')) (by simp) eD
  have hder : ∀ r ∈ p, ∀ θ, (∀ t, Lit.sub t ∈ r.body → Der I (p ++ Ti) (gsub θ t)) → Der I (p ++ Ti) (gsub θ r.head) := fun r hr θ h => .inr (der_step hr h)
  by_cases hdx : Der I (p ++ Ti) x
  · refine spec_values (Der := Der I (p ++ Ti)) (U := fun y => bval (W := W) g.ops y.1 ≠ none ∨ Use sig outs I p Ti y) hS (su.pok hk) e su.bzero su.data
      hder (hap D eD) (fun r hr θ hh h => ?_) i x (.inr (use_out hx hdx))
    have hh' : Use sig outs I p Ti (gsub θ r.head) := hh.resolve_left fun h => h (user_bval ((su.pok hk r hr).user) θ)
    have hb : ∀ t, Lit.sub t ∈ r.body → bval (W := W) g.ops (gsub θ t).1 ≠ none ∨ Use sig outs I p Ti (gsub θ t) := by
      intro t ht
      cases hs : Linearize.isBuiltin sig t with
      | true => exact .inl (sig_bval hsig ((su.wok hr).call t ht) hs θ)
      | false => exact .inr (use_body hr hh' h ht hs)
    exact ⟨hcov hh', fun t ht => ⟨hb t ht, (hb t ht).imp_right hcov⟩⟩
  · rw [zero_rounds hS (su.pok hk) e su.bzero su.data hder i x hdx, Prune.rounds_zero su.data hder (fun r hr => hr) i x hdx]

end

/-! ### `specialize=False` -/

omit [CSemi W] in
theorem pruneDead_eq {g : Cfg} {f k : Nat} {ch : List Ty} : ∀ {p q : List (WRule W)}, pruneDead g f k p ch = some q →
    q = p.filter (fun r => alive g f k ch r == some true) ∧ ∀ r ∈ p, alive g f k ch r ≠ none
  | [], q, e => by
    simp only [pruneDead, Option.some.injEq] at e
    subst e
    simp
  | r :: p, q, e => by
    simp only [pruneDead] at e
    split at e
    · next b q' e1 e2 =>
      simp only [Option.some.injEq] at e
      obtain ⟨h1, h2⟩ := pruneDead_eq e2
      refine ⟨?_, fun r' hr' => ?_⟩
      · rw [List.filter_cons, e1, ← h1, ← e]
        cases b <;> rfl
      · rcases List.mem_cons.1 hr' with rfl | hr'
        · rw [e1]; simp
        · exact h2 r' hr'
    · cases e

/-- a rule is kept if some instance of its head and subgoals belongs to types of the chart -/
theorem alive_true {g : Cfg} {J : Set Tm} (Q : TypeAn.Queries g I J) (hin : ∀ t ∈ g.inputs, vars t ⊆ L) {f k : Nat} (hL : ∀ n ∈ L, n < k) {ch : List Ty}
    (hu : ∀ t ∈ ch, TypeAn.User g t.1) {r : WRule W} (hv : ∀ n ∈ rvars r, n ∉ L ∧ n < k) (hc : ∀ t ∈ r.head :: subgoals r.body, Callable t) {θ : Nat → GTm}
    (h : ∀ t ∈ r.head :: subgoals r.body, (gsub θ t).1 ∈ J ∨ (gsub θ t).1 ∈ TypeAn.Cover I ch) (hne : alive g f k ch r ≠ none) : alive g f k ch r = some true := by
  let F : TypeAn.Frame Unit := ⟨fun _ => ∅, fun _ => True, fun _ _ => True, fun _ => trivial, fun _ _ => trivial, fun _ => le_refl _⟩
  have hvs : ∀ t ∈ r.head :: subgoals r.body, vars t ⊆ TypeAn.Vs L k := by
    intro t ht n hn
    have : n ∈ rvars r := by
      rcases List.mem_cons.1 ht with rfl | ht
      · exact Finset.mem_union_left _ hn
      · exact Finset.mem_union_right _ (TypeAn.sub_vars (mem_subgoals.1 ht) hn)
    simp only [TypeAn.Vs, Finset.mem_sdiff, Finset.mem_range]
    exact ⟨(hv n this).2, (hv n this).1⟩
  have hno : TypeAn.Hits F k noHeap (join g f ch (r.head :: subgoals r.body) fun _ h s => some (h, s, found)) (.con (.int 0)) :=
    TypeAn.join_hits (F := F) Q hin hL hu (le_refl k) (ok_noHeap _) (fun t ht => ⟨hvs t ht, hc t ht⟩) (fun ys k' h' _ _ _ s h'' s' _ _ e => by cases e)
      (fun n t h => by simp [noHeap] at h) (fun ys k' h' θ' _ _ _ _ _ _ s h'' s' _ _ e => by cases e) h
  unfold alive at hne ⊢
  split
  · next e => exact (hno _ _ _ (le_refl _) trivial e).elim
  · rfl
  · next h1 h2 =>
    exfalso
    apply hne
    split
    · next e => exact (h1 _ _ e).elim
    · next e => exact (h2 _ _ e).elim
    · rfl


/-! #### What is removed -/

/-- leaving the loop early implies `P` -/
def Leaves (k : Nat) (h : Heap) (b : Body (Unit × Nat)) (P : Prop) : Prop := ∀ s h' s', k ≤ s.2 → b h s = some (h', s', found) → P

/-- a subgoal can be matched: by a pattern of the chart, by an input, or by a builtin -/
def Matched (g : Cfg) (ch : List Ty) (θ : Nat → GTm) (q : Tm) : Prop :=
  (∃ t ∈ ch, Inst t.1 (gsub θ q)) ∨ (∃ p ∈ g.inputs, ∃ τ, p.sub τ = q.sub τ) ∨
  (∃ c o a b, q = .app [.con c, a, b] ∧ g.ops c = some o ∧ (o (gsub θ a).1 (gsub θ b).1 = true ∨ vars q ≠ ∅)) ∨
  ∃ a b, q = .app [.con (.str "="), a, b] ∧ gsub θ a = gsub θ b

def unitF : TypeAn.Frame Unit := ⟨fun _ => ∅, fun _ => True, fun _ _ => True, fun _ => trivial, fun _ _ => trivial, fun _ => le_refl _⟩

theorem forEach_leaves {α : Type} {k : Nat} {h : Heap} {b : α → Body (Unit × Nat)} {P : Prop} :
    ∀ {l : List α}, (∀ a ∈ l, TypeAn.Steps unitF k h (b a)) → (∀ a ∈ l, Leaves k h (b a) P) → Leaves k h (forEach l b) P
  | [], _, _ => by
    intro s h' s' _ e
    simp [forEach, found] at e
  | a :: l, h1, h2 => by
    intro s h' s' hk e
    simp only [forEach] at e
    split at e
    · cases e
    · next h3 s3 e3 =>
      obtain ⟨rfl, k1, _, _⟩ := h1 a (by simp) s h3 s3 hk trivial e3
      exact forEach_leaves (l := l) (fun a h => h1 a (by simp [h])) (fun a h => h2 a (by simp [h])) s3 h' s' (hk.trans k1) e
    · next r e1 e2 =>
      simp only [Option.some.injEq] at e
      subst e
      exact h2 a (by simp) s h' s' hk e2

theorem unify_leaves {f k : Nat} {h : Heap} (o : Ok h (TypeAn.Vs L k)) {x y : Tm} (hx : vars x ⊆ TypeAn.Vs L k) (hy : vars y ⊆ TypeAn.Vs L k)
    {b : Body (Unit × Nat)} {P : Prop} (hb : ∀ h', Ok h' (TypeAn.Vs L k) → (∀ θ, Resp h' θ → Resp h θ ∧ gsub θ x = gsub θ y) → Leaves k h' b P) :
    Leaves k h (unifyF f x y b) P := by
  intro s h' s' hk e
  obtain ⟨r, hsp, hrun⟩ := unify_run o.good x y
  have e2 := hrun _ _ _ _ e
  cases r with
  | none => simp [run, found] at e2
  | some bs =>
    have o' := ok_bindAll o hx hy hsp
    cases hsp with
    | ok _ hg hr hn hd hv =>
    simp only [run] at e2
    split at e2
    · cases e2
    · next h1 s1 sig e3 =>
      simp only [Option.some.injEq, Prod.mk.injEq] at e2
      obtain ⟨rfl, rfl, rfl⟩ := e2
      exact hb _ o' (fun θ hθ => ⟨((hr _).1 hθ).1, sub_ext_eq.2 ((hr _).1 hθ).2⟩) s h1 s1 hk e3

theorem lookupVals_leaves {g : Cfg} {f k0 k : Nat} (hL : ∀ n ∈ L, n < k0) (hk0 : k0 ≤ k) {h : Heap} (o : Ok h (TypeAn.Vs L k)) {q : Tm}
    (hq : vars q ⊆ TypeAn.Vs L k) (hc : Callable q) {body : List Tm → Body (Unit × Nat)} (hs : TypeAn.ContS unitF L k body) {ch : List Ty} {P : Prop}
    (hb : ∀ ys k' h', k ≤ k' → Ok h' (TypeAn.Vs L k') → (∀ θ, Resp h' θ → Resp h θ ∧ Matched g ch θ q) → (∀ y ∈ ys, vars y ⊆ TypeAn.Vs L k') → Leaves k' h' (body ys) P) :
    Leaves k h (lookupVals g f ch q body) P := by
  obtain ⟨c, as, rfl⟩ := hc
  have htry : ∀ x ∈ ch, Leaves k h (tryTy f (.app (.con c :: as)) body x) P := by
    intro x hx s h' s' hk e
    have hle := TypeAn.freshT_le s.2 x
    have hv := TypeAn.fresh_Vs hL (hk0.trans hk) x
    have hv1 : vars (freshT s.2 x).1.1 ⊆ TypeAn.Vs L (freshT s.2 x).2 := fun n hn => hv (TypeAn.mem_tvars.2 (.inl hn))
    have hv2 : ∀ y ∈ (freshT s.2 x).1.2, vars y ⊆ TypeAn.Vs L (freshT s.2 x).2 := fun y hy n hn => hv (TypeAn.mem_tvars.2 (.inr ⟨y, hy, hn⟩))
    refine unify_leaves (f := f) (TypeAn.ok_mono (hk.trans hle) o) hv1 (hq.trans (TypeAn.Vs_mono (hk.trans hle))) (fun h2 o2 h3 => ?_)
      (s.1, (freshT s.2 x).2) h' s' (le_refl _) e
    refine hb _ _ h2 (hk.trans hle) o2 (fun θ hθ => ⟨(h3 θ hθ).1, .inl ⟨x, hx, ?_⟩⟩) hv2
    obtain ⟨ρ, e1, _⟩ := TypeAn.freshT_spec s.2 x
    refine ⟨fun n => θ (ρ n), ?_⟩
    rw [← (h3 θ hθ).2, e1]
    show _ = gsub θ (x.1.sub fun n => .var (ρ n))
    rw [gsub_sub]
    rfl
  have hall : ∀ l : List Ty, (∀ x ∈ l, x ∈ ch) → Leaves k h (forEach l (tryTy f (.app (.con c :: as)) body)) P := fun l hl =>
    forEach_leaves (fun a _ => (TypeAn.tryTy_both hL hk0 o hq hs a).1) fun a ha => htry a (hl a ha)
  have hself : TypeAn.Steps unitF k h (body [.app (.con c :: as)]) := hs _ k h (le_refl _) o (by simpa using hq)
  intro s h' s' hk e
  unfold lookupVals at e
  cases f with
  | zero => simp [snapF] at e
  | succ f =>
    simp only [snapF] at e
    split at e
    · simp [Unfold.unsupported, found] at e
    · split at e
      · cases e
      · next hi =>
        obtain ⟨p, hp, τ, _, h4⟩ := (TypeAn.isInput_val o.good hi).1 rfl
        exact hb _ k h (le_refl _) o (fun θ hθ => ⟨hθ, .inr (.inl ⟨p, hp, τ, h4⟩)⟩) (by simpa using hq) s h' s' hk e
      · split at e
        · next x y ho _ =>
          split at e
          · next e1 e2 e3 e4 =>
            split at e
            · next hoo =>
              refine hb _ k h (le_refl _) o (fun θ hθ => ⟨hθ, .inr (.inr (.inl ⟨_, _, _, _, rfl, ho, .inl ?_⟩))⟩) (by simp) s h' s' hk e
              rw [← TypeAn.res_ground o.good hθ e1 e3, ← TypeAn.res_ground o.good hθ e2 e4]
              exact hoo
            · simp [found] at e
          · next hne e1 e2 e3 e4 =>
            have hvs : vars (.app [.con c, x, y]) ≠ ∅ := by
              intro h0
              simp only [vars_app, varsL, vars_con, Finset.union_eq_empty] at h0
              have g1 := (Solver.ground_val o.good e1).2 (by rw [Unfold.sub_closed h0.2.1]; exact h0.2.1)
              have g2 := (Solver.ground_val o.good e2).2 (by rw [Unfold.sub_closed h0.2.2.1]; exact h0.2.2.1)
              subst g1
              subst g2
              exact hne rfl rfl
            split at e
            · cases e
            · next h1 s1 e1 =>
              obtain ⟨rfl, k1, _, _⟩ := hself s _ _ hk trivial e1
              exact hall _ (fun x hx => (List.mem_filter.1 hx).1) _ _ _ (hk.trans k1) e
            · next r hne e1 =>
              simp only [Option.some.injEq] at e
              subst e
              exact hb _ k h (le_refl _) o (fun θ hθ => ⟨hθ, .inr (.inr (.inl ⟨_, _, _, _, rfl, ho, .inr hvs⟩))⟩) (by simpa using hq) s h' s' hk e1
          · cases e
        · split at e
          · next x y _ _ _ =>
            have hx : vars x ⊆ TypeAn.Vs L k := fun n hn => hq (by simp [hn])
            have hy : vars y ⊆ TypeAn.Vs L k := fun n hn => hq (by simp [hn])
            exact unify_leaves o hx hy (fun h2 o2 h3 => hb _ k h2 (le_refl _) o2 (fun θ hθ => ⟨(h3 θ hθ).1, .inr (.inr (.inr ⟨_, _, rfl, (h3 θ hθ).2⟩))⟩) (by simp))
              s h' s' hk e
          · exact hall _ (fun x hx => (List.mem_filter.1 hx).1) s h' s' hk e

theorem join_leaves {g : Cfg} {f k0 : Nat} (hL : ∀ n ∈ L, n < k0) {ch : List Ty} {P : Prop} : ∀ {qs : List Tm} {k : Nat} {h : Heap} {body : List Tm → Body (Unit × Nat)},
    k0 ≤ k → Ok h (TypeAn.Vs L k) → (∀ q ∈ qs, vars q ⊆ TypeAn.Vs L k ∧ Callable q) → TypeAn.ContS unitF L k body →
    (∀ ys k' h', k ≤ k' → Ok h' (TypeAn.Vs L k') → (∀ θ, Resp h' θ → Resp h θ ∧ ∀ q ∈ qs, Matched g ch θ q) → Leaves k' h' (body ys) P) →
    Leaves k h (join g f ch qs body) P
  | [], k, h, body, _, o, _, _, hb => hb [] k h (le_refl _) o fun θ hθ => ⟨hθ, by simp⟩
  | q :: qs, k, h, body, hk0, o, hq, hs, hb => by
    have hq' : ∀ k', k ≤ k' → ∀ q' ∈ qs, vars q' ⊆ TypeAn.Vs L k' ∧ Callable q' := fun k' hk q' hq' => by
      have := hq q' (by simp [hq'])
      exact ⟨this.1.trans (TypeAn.Vs_mono hk), this.2⟩
    have happ : ∀ {ds es : List Tm} {k1 k2 : Nat}, k1 ≤ k2 → (∀ y ∈ ds, vars y ⊆ TypeAn.Vs L k1) → (∀ y ∈ es, vars y ⊆ TypeAn.Vs L k2) →
        ∀ y ∈ ds ++ es, vars y ⊆ TypeAn.Vs L k2 := by
      intro ds es k1 k2 hk hd he y hy
      rcases List.mem_append.1 hy with hy | hy
      · exact (hd y hy).trans (TypeAn.Vs_mono hk)
      · exact he y hy
    refine lookupVals_leaves hL hk0 o (hq q (by simp)).1 (hq q (by simp)).2 (fun ds k' h' hk o' hd => ?_) (fun ds k' h' hk o' h1 hd => ?_)
    · exact TypeAn.join_steps hL ch (hk0.trans hk) o' (hq' k' hk) fun es k2 h2 hk2 o2 he => hs _ k2 h2 (hk.trans hk2) o2 (happ hk2 hd he)
    · refine join_leaves hL (hk0.trans hk) o' (hq' k' hk) (fun es k2 h2 hk2 o2 he => hs _ k2 h2 (hk.trans hk2) o2 (happ hk2 hd he))
        fun es k2 h2 hk2 o2 h3 => hb _ k2 h2 (hk.trans hk2) o2 fun θ hθ => ?_
      obtain ⟨a1, a2⟩ := h3 θ hθ
      refine ⟨(h1 θ a1).1, fun q' hq' => ?_⟩
      rcases List.mem_cons.1 hq' with rfl | hq'
      · exact (h1 θ a1).2
      · exact a2 q' hq'

omit [CSemi W] in
/-- **C67, what `_prune_dead` removes.**  Only rules are kept some instance of which has its head and all its subgoals
matched: by the head of a type of the chart, by an input, or by a builtin that holds or was not yet instantiated. -/
theorem C67_dead_removes {g : Cfg} {f k : Nat} (hL : ∀ n ∈ L, n < k) {ch : List Ty} {p q : List (WRule W)}
    (hp : ∀ r ∈ p, (∀ n ∈ rvars r, n ∉ L ∧ n < k) ∧ ∀ t ∈ r.head :: subgoals r.body, Callable t) (e : pruneDead g f k p ch = some q) {r : WRule W} (hr : r ∈ q) :
    r ∈ p ∧ ∃ θ, ∀ t ∈ r.head :: subgoals r.body, Matched g ch θ t := by
  obtain ⟨rfl, _⟩ := pruneDead_eq e
  obtain ⟨hr, ha⟩ := List.mem_filter.1 hr
  refine ⟨hr, ?_⟩
  obtain ⟨hv, hc⟩ := hp r hr
  have hvs : ∀ t ∈ r.head :: subgoals r.body, vars t ⊆ TypeAn.Vs L k := by
    intro t ht n hn
    have : n ∈ rvars r := by
      rcases List.mem_cons.1 ht with rfl | ht
      · exact Finset.mem_union_left _ hn
      · exact Finset.mem_union_right _ (TypeAn.sub_vars (mem_subgoals.1 ht) hn)
    simp only [TypeAn.Vs, Finset.mem_sdiff, Finset.mem_range]
    exact ⟨(hv n this).2, (hv n this).1⟩
  have hlv : Leaves k noHeap (join g f ch (r.head :: subgoals r.body) fun _ h s => some (h, s, found)) (∃ θ, ∀ t ∈ r.head :: subgoals r.body, Matched g ch θ t) := by
    refine join_leaves hL (le_refl k) (ok_noHeap _) (fun t ht => ⟨hvs t ht, hc t ht⟩) (fun ys k' h' _ _ _ s h'' s' _ _ e => by cases e)
      fun ys k' h' _ o' h1 s h2 s2 _ _ => ?_
    have hθ : Resp h' fun n => gsub (fun _ => ⟨.con (.int 0), rfl⟩) (res h' n) := by
      intro n t e
      have := o'.good.respects_res n t e
      show (res h' n).sub _ = _
      rw [this, sub_sub]
      rfl
    exact ⟨_, (h1 _ hθ).2⟩
  simp only [beq_iff_eq] at ha
  unfold alive at ha
  split at ha
  · simp at ha
  · next h' s' e1 => exact hlv _ _ _ (le_refl _) e1
  · cases ha

/-- of `f(X) += b(X). g(X) += h(X).`, with types for `f` and `b` only, the first rule is kept -/
def rmP : List (WRule Nat) := [⟨TypeAn.mkT "f" [.var 3], [.sub (TypeAn.mkT "b" [.var 3])]⟩, ⟨TypeAn.mkT "g" [.var 3], [.sub (TypeAn.mkT "h" [.var 3])]⟩]

def rmCh : List Ty := [(TypeAn.mkT "f" [.var 4], []), (TypeAn.mkT "b" [.con (.int 1)], [])]

example : pruneDead (TypeAn.cfg [] [] 3) 20 10 rmP rmCh = some [⟨TypeAn.mkT "f" [.var 3], [.sub (TypeAn.mkT "b" [.var 3])]⟩] ∧
    ∃ θ, ∀ t ∈ [TypeAn.mkT "f" [.var 3], TypeAn.mkT "b" [.var 3]], Matched (TypeAn.cfg [] [] 3) rmCh θ t := by
  have e : pruneDead (TypeAn.cfg [] [] 3) 20 10 rmP rmCh = some [⟨TypeAn.mkT "f" [.var 3], [.sub (TypeAn.mkT "b" [.var 3])]⟩] := by decide +kernel
  refine ⟨e, (C67_dead_removes (L := ∅) (by simp) (fun r hr => ?_) e (List.mem_singleton.2 rfl)).2⟩
  simp only [rmP, List.mem_cons, List.not_mem_nil, or_false] at hr
  rcases hr with rfl | rfl
  all_goals
    refine ⟨by decide, fun t ht => ?_⟩
    simp only [subgoals, List.filterMap_cons, List.filterMap_nil, List.mem_cons, List.not_mem_nil, or_false] at ht
    rcases ht with rfl | rfl <;> exact ⟨_, _, rfl⟩

/-- **C67, `prune(bottom_up_only=True, specialize=False)`.** -/
theorem C67_dead_bottom_up (su : Setup .bottomUp g I L k p Ti d) {f n : Nat} {q : List (WRule W)} (e : pruneKeep .bottomUp g f n k p Ti = some q) (i : Nat) (x : GTm) :
    rounds q d i x = rounds p d i x := by
  unfold pruneKeep at e
  split at e
  · cases e
  next ch k1 e1 =>
  unfold chart at e1
  split at e1
  · cases e1
  next ch' k1' e2 =>
  simp only [Option.some.injEq, Prod.mk.injEq] at e1
  obtain ⟨rfl, rfl⟩ := e1
  obtain ⟨hk, hu, hcl⟩ := su.closed e2
  obtain ⟨rfl, hne⟩ := pruneDead_eq e
  refine Prune.rounds_keep (Der := Der I (p ++ Ti)) (U := fun _ => True) su.data (fun r hr θ h => .inr (der_step hr h)) (fun r hr θ _ h => ⟨?_, fun t _ => trivial⟩) i x trivial
  simp only [joinCfg] at hne ⊢
  rw [alive_true (θ := θ) su.world.queries su.names (fun n hn => (su.low n hn).trans_le hk) hu (fun n hn => ⟨((su.wok hr).vs n hn).1, ((su.wok hr).vs n hn).2.trans_le hk⟩)
    (fun t ht => ?_) (fun t ht => ?_) (hne r hr)]
  · rfl
  · rcases List.mem_cons.1 ht with rfl | ht
    · obtain ⟨c, as, e, _⟩ := (su.wok hr).user
      exact ⟨c, as, e⟩
    · exact (su.wok hr).call t (mem_subgoals.1 ht)
  · rcases List.mem_cons.1 ht with rfl | ht
    · exact .inr (hcl _ (der_step hr h))
    · exact (h t (mem_subgoals.1 ht)).imp_right (hcl _)

/-- **C67, `prune(specialize=False)`.** -/
theorem C67_dead_useful {sig : Linearize.Sigs} {outs : List (WRule W)} (su : Setup (.useful sig outs) g I L k p Ti d) (hsig : SigOk g.ops sig) {f n : Nat}
    (hch : ∀ ch k1, chart (.useful sig outs) g f n k p Ti = some (ch, k1) → ∀ t ∈ ch, UserHead g.ops t.1) {q : List (WRule W)}
    (e : pruneKeep (.useful sig outs) g f n k p Ti = some q) (i : Nat) {x : GTm} (hx : IsOut I (p ++ Ti) outs x) : rounds q d i x = rounds p d i x := by
  unfold pruneKeep at e
  split at e
  · cases e
  next ch k1 e1 =>
  have huu := hch ch k1 e1
  unfold chart at e1
  split at e1
  · cases e1
  next ch' k1' e2 =>
  simp only [Option.some.injEq, Prod.mk.injEq] at e1
  obtain ⟨rfl, rfl⟩ := e1
  obtain ⟨hk, hu, hcl⟩ := su.closed e2
  obtain ⟨rfl, hne⟩ := pruneDead_eq e
  have hder : ∀ r ∈ p, ∀ θ, (∀ t, Lit.sub t ∈ r.body → Der I (p ++ Ti) (gsub θ t)) → Der I (p ++ Ti) (gsub θ r.head) := fun r hr θ h => .inr (der_step hr h)
  have Q : TypeAn.Queries (joinCfg (.useful sig outs) g) I {x | x ∈ I ∧ bval (W := W) g.ops x ≠ none} := by
    refine ⟨by simp [joinCfg], fun x hx => hx.1, fun x y h => su.world.eq x y h.1, fun c o x y ho h => su.world.ops c o x y ho h.1, su.world.con, fun c as h => ?_⟩
    have h2 := h.2
    unfold bval at h2
    split at h2
    · next c' a b e =>
      simp only [Tm.app.injEq, List.cons.injEq, Tm.con.injEq] at e
      obtain ⟨rfl, rfl⟩ := e
      split at h2
      · next o ho =>
        exact .inr (.inl ⟨by simp [joinCfg, ho], rfl⟩)
      · split at h2
        · next hc => exact .inl ⟨hc, rfl⟩
        · simp at h2
    · simp at h2
  by_cases hdx : Der I (p ++ Ti) x
  · refine Prune.rounds_keep (Der := Der I (p ++ Ti)) (U := fun y => bval (W := W) g.ops y.1 ≠ none ∨ Use sig outs I p Ti y) su.data hder
      (fun r hr θ hh h => ?_) i x (.inr (use_out hx hdx))
    have hh' : Use sig outs I p Ti (gsub θ r.head) := hh.resolve_left fun h => h (user_bval ((su.pok hk r hr).user) θ)
    have hb : ∀ t, Lit.sub t ∈ r.body → bval (W := W) g.ops (gsub θ t).1 ≠ none ∨ Use sig outs I p Ti (gsub θ t) := by
      intro t ht
      cases hs : Linearize.isBuiltin sig t with
      | true => exact .inl (sig_bval hsig ((su.wok hr).call t ht) hs θ)
      | false => exact .inr (use_body hr hh' h ht hs)
    refine ⟨?_, hb⟩
    rw [alive_true (θ := θ) (L := L) Q (by simp [joinCfg]) (fun n hn => (su.low n hn).trans_le hk) (fun t ht => ?_)
      (fun n hn => ⟨((su.wok hr).vs n hn).1, ((su.wok hr).vs n hn).2.trans_le hk⟩) (fun t ht => ?_) (fun t ht => ?_) (hne r hr)]
    · rfl
    · obtain ⟨c, as, e, h1, h2⟩ := huu t ht
      exact ⟨c, as, e, h1, h2, by simp [joinCfg]⟩
    · rcases List.mem_cons.1 ht with rfl | ht
      · obtain ⟨c, as, e, _⟩ := (su.wok hr).user
        exact ⟨c, as, e⟩
      · exact (su.wok hr).call t (mem_subgoals.1 ht)
    · rcases List.mem_cons.1 ht with rfl | ht
      · exact .inr (mem_usefulTypes hu (hcl _ hh'))
      · have ht := mem_subgoals.1 ht
        by_cases hbv : bval (W := W) g.ops (gsub θ t).1 = none
        · exact .inr (mem_usefulTypes hu (hcl _ ((hb t ht).resolve_left fun h => h hbv)))
        · refine .inl ⟨(h t ht).resolve_right fun hd => ?_, hbv⟩
          generalize hz : (gsub θ t).1 = z at hd
          cases hd with
          | @rule r' θ' hr' _ =>
            obtain ⟨c, as, e, h1, h2, _⟩ := (su.rules r' (sub_analyzed hr')).user
            rw [hz] at hbv
            exact hbv (user_bval ⟨c, as, e, h1, h2⟩ θ')
  · rw [Prune.rounds_zero su.data hder (fun r hr => (List.mem_filter.1 hr).1) i x hdx, Prune.rounds_zero su.data hder (fun r hr => hr) i x hdx]

end

end

/-! ### Concrete cases -/

section
open TypeAn (mkT cfg cfg_sound World WOk User)
open scoped ENNReal

theorem apart_fn {S : List Tm} (h1 : ∀ s ∈ S, ∃ c as, s = .app (.con c :: as)) (h2 : S.Pairwise fun s t => hfn s ≠ hfn t) : Apart S := by
  unfold Apart
  induction S with
  | nil => exact .nil
  | cons s S ih =>
    obtain ⟨h3, h4⟩ := List.pairwise_cons.1 h2
    refine List.pairwise_cons.2 ⟨fun t ht z => ?_, ih (fun s hs => h1 s (by simp [hs])) h4⟩
    rintro ⟨⟨θ, e1⟩, φ, e2⟩
    obtain ⟨c, as, rfl⟩ := h1 s (by simp)
    obtain ⟨c', as', rfl⟩ := h1 t (by simp [ht])
    have := congrArg Subtype.val (e1.trans e2.symm)
    simp only [gsub, sub_app, List.map_cons, sub_con, Tm.app.injEq, List.cons.injEq, Tm.con.injEq] at this
    exact h3 _ ht (by simp [hfn, this.1])

/-- only `$free` is an input -/
def frG : Cfg := cfg [] [mkT "$free" [.var 0]] 3

/-- constants and `$free` hold -/
def frI : Set Tm := {x | (∃ c, x = .con c) ∨ ∃ y, vars y = ∅ ∧ x = mkT "$free" [y]}

theorem frW : World frG frI where
  heads := by
    intro p hp
    simp only [frG, cfg, List.mem_singleton] at hp
    subst hp
    exact ⟨_, _, rfl⟩
  eq := by rintro x y (⟨c, h⟩ | ⟨z, _, h⟩) <;> simp [mkT] at h
  ops := by intro c o x y h; simp [frG, cfg] at h
  con := fun c => .inl ⟨c, rfl⟩
  free := fun x hx => .inr ⟨x, hx, rfl⟩
  input := by
    rintro c as (⟨c', h⟩ | ⟨z, _, h⟩)
    · cases h
    · simp only [mkT, Tm.app.injEq, List.cons.injEq, Tm.con.injEq] at h
      obtain ⟨rfl, rfl⟩ := h
      exact .inr (.inr ⟨mkT "$free" [.var 0], by simp [frG, cfg], fun _ => z, by simp [mkT]⟩)

def fnOk (t : Tm) : Bool := match t with
  | .app (.con c :: _) => decide (c ≠ .str "=" ∧ c ≠ .str "$free")
  | _ => false

def okB {W : Type} (r : WRule W) : Bool := decide (∀ n ∈ rvars r, n ≠ 0 ∧ n < 10) && fnOk r.head && (subgoals r.body).all fnOk

theorem fnOk_spec {t : Tm} (h : fnOk t = true) : ∃ c as, t = .app (.con c :: as) ∧ c ≠ .str "=" ∧ c ≠ .str "$free" := by
  unfold fnOk at h
  split at h
  · next c as => exact ⟨c, as, rfl, by simpa using h⟩
  · cases h

theorem okB_spec {W : Type} [CSemi W] {r : WRule W} (h : okB r = true) : WOk frG {0} 10 r ∧ ∀ t, .sub t ∈ r.body → ∀ i ∈ frG.inputs, hfn i ≠ hfn t := by
  simp only [okB, Bool.and_eq_true, decide_eq_true_eq, List.all_eq_true] at h
  obtain ⟨⟨h1, h2⟩, h3⟩ := h
  refine ⟨⟨fun n hn => by simpa using h1 n hn, ?_, fun t ht => ?_⟩, fun t ht i hi => ?_⟩
  · obtain ⟨c, as, e, h4, h5⟩ := fnOk_spec h2
    refine ⟨c, as, e, rfl, h4, fun p hp => ?_⟩
    simp only [frG, cfg, List.mem_singleton] at hp
    subst hp
    simpa [mkT, hfn] using fun h => h5 h.symm
  · obtain ⟨c, as, e, _⟩ := fnOk_spec (h3 t (mem_subgoals.2 ht))
    exact ⟨c, as, e⟩
  · obtain ⟨c, as, e, _, h5⟩ := fnOk_spec (h3 t (mem_subgoals.2 ht))
    simp only [frG, cfg, List.mem_singleton] at hi
    subst hi
    rw [e]
    simpa [mkT, hfn] using fun h => h5 h.symm

theorem fr_setup {mode : Mode ℝ≥0∞} {p Ti : List (WRule ℝ≥0∞)} {d : GTm → ℝ≥0∞} (h1 : (analyzed mode p Ti).all okB = true)
    (h2 : ∀ x, d x ≠ 0 → TypeAn.Derives (p ++ Ti) frI x.1) : Setup mode frG frI {0} 10 p Ti d where
  world := frW
  sound := cfg_sound _ _ _ _ _
  names := by simp [frG, cfg, mkT]
  depth := by decide
  low := by simp
  rules := fun r hr => (okB_spec (List.all_eq_true.1 h1 r hr)).1
  params := fun r hr => (okB_spec (List.all_eq_true.1 h1 r (sub_analyzed (by simp [hr])))).2
  data := fun x hx => .inr (h2 x hx)

/-- `goal += path(1,Y). path(X,Y) += edge(X,Y). path(X,Z) += path(X,Y) * edge(Y,Z). junk += edge(X,Y).` -/
def goP : List (WRule ℝ≥0∞) := [⟨mkT "goal" [], [.sub (mkT "path" [.con (.int 1), .var 3])]⟩,
  ⟨mkT "path" [.var 3, .var 4], [.sub (mkT "edge" [.var 3, .var 4])]⟩,
  ⟨mkT "path" [.var 3, .var 5], [.sub (mkT "path" [.var 3, .var 4]), .sub (mkT "edge" [.var 4, .var 5])]⟩,
  ⟨mkT "junk" [], [.sub (mkT "edge" [.var 4, .var 5])]⟩]
def goT : List (WRule ℝ≥0∞) := [⟨mkT "edge" [.var 3, .var 4], []⟩]
def goM : Mode ℝ≥0∞ := .useful (fun _ _ => false) [⟨mkT "goal" [], []⟩]

theorem go_setup (mode : Mode ℝ≥0∞) (hm : (analyzed mode goP goT).all okB = true) {d : GTm → ℝ≥0∞} (hd : ∀ x, d x ≠ 0 → ∃ a b : GTm, x.1 = mkT "edge" [a.1, b.1]) :
    Setup mode frG frI {0} 10 goP goT d := by
  refine fr_setup hm fun x hx => ?_
  obtain ⟨a, b, e⟩ := hd x hx
  have := TypeAn.Derives.rule (p := goP ++ goT) (I := frI) (r := ⟨mkT "edge" [.var 3, .var 4], []⟩) (fun n => if n = 3 then a else b) (by simp [goT]) (by simp)
  rw [e]
  simpa [TypeAn.gsub_eq, mkT] using this

theorem go_chart : chart goM frG 30 20 10 goP goT = some ([(mkT "goal" [], []), (mkT "path" [.con (.int 1), .var 45], [mkT "$free" [.var 45]]),
    (mkT "edge" [.var 56, .var 57], [mkT "$free" [.var 57], mkT "$free" [.var 56]]), (mkT "edge" [.con (.int 1), .var 70], [mkT "$free" [.var 70]]),
    (mkT "edge" [.var 89, .var 90], [mkT "$free" [.var 89], mkT "$free" [.var 90]])], 104) := by decide +kernel

theorem named_mk (c : Const) {as : List Tm} (h : ∀ t ∈ as, (∃ n, t = .var n) ∨ ∃ c, t = .con c) : Order.Named (.app (.con c :: as)) :=
  .app c as fun t ht => by
    rcases h t ht with ⟨n, rfl⟩ | ⟨d, rfl⟩
    · exact .var n
    · exact .con d

theorem go_patterns : ∀ ch k1, chart goM frG 30 20 10 goP goT = some (ch, k1) →
    Patterns ℝ≥0∞ (fun i => 2 * i) (fun i => 2 * i + 1) 30 5 ch ∧ ∀ t ∈ ch, User frG t.1 := by
  intro ch k1 e
  rw [go_chart] at e
  simp only [Option.some.injEq, Prod.mk.injEq] at e
  obtain ⟨rfl, rfl⟩ := e
  refine ⟨⟨?_, fun D eD => .inl ?_⟩, ?_⟩
  · simp only [List.mem_cons, List.not_mem_nil, or_false, forall_eq_or_imp, forall_eq, mkT]
    exact ⟨named_mk _ (by simp), named_mk _ (by simp), named_mk _ (by simp), named_mk _ (by simp), named_mk _ (by simp)⟩
  · have : D.xs = [mkT "goal" [], mkT "path" [.con (.int 1), .var 1], mkT "edge" [.var 1, .var 3]] := by
      have : ((addAll (DisjointEst.add (fun i => 2 * i) (fun i => 2 * i + 1) 30) ⟨[], 5⟩
        ([(mkT "goal" [], []), (mkT "path" [.con (.int 1), .var 45], [mkT "$free" [.var 45]]),
    (mkT "edge" [.var 56, .var 57], [mkT "$free" [.var 57], mkT "$free" [.var 56]]), (mkT "edge" [.con (.int 1), .var 70], [mkT "$free" [.var 70]]),
    (mkT "edge" [.var 89, .var 90], [mkT "$free" [.var 89], mkT "$free" [.var 90]])].map (Prod.fst : Ty → Tm))).map TSet.xs) =
          some [mkT "goal" [], mkT "path" [.con (.int 1), .var 1], mkT "edge" [.var 1, .var 3]] := by decide +kernel
      rw [eD] at this
      simpa using this
    rw [this]
    refine apart_fn ?_ ?_
    · simp [mkT]
    · simp [mkT, hfn]
  · simp only [List.mem_cons, List.not_mem_nil, or_false, forall_eq_or_imp, forall_eq]
    refine ⟨?_, ?_, ?_, ?_, ?_⟩ <;> exact ⟨_, _, rfl, rfl, by simp, by simp [frG, cfg, mkT, hfn]⟩

theorem sig_none (ops : Ops) : SigOk ops fun _ _ => false := fun _ _ h => by cases h

def goal : GTm := gsub (fun _ => TypeAn.gI 0) (mkT "goal" [])

/-- `prune()` returns, removes the rule for `junk`, and restricts the rules for `path` to sources `1`: the value of
`goal` stays, for all weights of the edges. -/
example {d : GTm → ℝ≥0∞} (hd : ∀ x, d x ≠ 0 → ∃ a b : GTm, x.1 = mkT "edge" [a.1, b.1]) :
    ∃ q k2, pruneSpec goM frG (fun i => 2 * i) (fun i => 2 * i + 1) 30 20 5 10 goP goT = some (q, k2) ∧
      q.map (fun r => (freshT 0 (r.head, subgoals r.body)).1) = [(mkT "goal" [], [mkT "path" [.con (.int 1), .var 0]]),
        (mkT "path" [.con (.int 1), .var 0], [mkT "edge" [.con (.int 1), .var 0]]),
        (mkT "path" [.con (.int 1), .var 0], [mkT "path" [.con (.int 1), .var 1], mkT "edge" [.var 1, .var 0]])] ∧
      ∀ i, rounds q d i goal = rounds goP d i goal := by
  have h : ((pruneSpec goM frG (fun i => 2 * i) (fun i => 2 * i + 1) 30 20 5 10 goP goT).map fun q =>
      q.1.map fun r => (freshT 0 (r.head, subgoals r.body)).1) = some [(mkT "goal" [], [mkT "path" [.con (.int 1), .var 0]]),
        (mkT "path" [.con (.int 1), .var 0], [mkT "edge" [.con (.int 1), .var 0]]),
        (mkT "path" [.con (.int 1), .var 0], [mkT "path" [.con (.int 1), .var 1], mkT "edge" [.var 1, .var 0]])] := by decide +kernel
  obtain ⟨⟨q, k2⟩, e, h⟩ := Option.map_eq_some_iff.1 h
  refine ⟨q, k2, e, h, fun i => ?_⟩
  exact C67_useful (go_setup goM (by decide +kernel) hd) (sig_none _) (fun a b h => by simpa using h) (fun a b h => by simpa using h) (fun i j => by omega)
    go_patterns e i ⟨⟨mkT "goal" [], []⟩, by simp, fun _ => TypeAn.gI 0, rfl, by simp⟩

/-- `prune(specialize=False)` removes the rule for `junk` only. -/
example {d : GTm → ℝ≥0∞} (hd : ∀ x, d x ≠ 0 → ∃ a b : GTm, x.1 = mkT "edge" [a.1, b.1]) :
    ∃ q, pruneKeep goM frG 30 20 10 goP goT = some q ∧ q.map (fun r => (r.head, subgoals r.body)) = (goP.take 3).map (fun r => (r.head, subgoals r.body)) ∧
      ∀ i, rounds q d i goal = rounds goP d i goal := by
  have h : ((pruneKeep goM frG 30 20 10 goP goT).map fun q => q.map fun r => (r.head, subgoals r.body)) =
      some ((goP.take 3).map fun r => (r.head, subgoals r.body)) := by decide +kernel
  obtain ⟨q, e, h⟩ := Option.map_eq_some_iff.1 h
  exact ⟨q, e, h, fun i => C67_dead_useful (go_setup goM (by decide +kernel) hd) (sig_none _) (fun ch k1 e t ht => user_head ((go_patterns ch k1 e).2 t ht)) e i
    ⟨⟨mkT "goal" [], []⟩, by simp, fun _ => TypeAn.gI 0, rfl, by simp⟩⟩

/-- the case of `bottom_up_only=True`: a rule for `junk(2)` that needs an edge from `a` to `b` -/
def buP : List (WRule ℝ≥0∞) := [⟨mkT "path" [.var 3, .var 4], [.sub (mkT "edge" [.var 3, .var 4])]⟩, ⟨mkT "junk" [], [.sub (mkT "none" [])]⟩]
def buT : List (WRule ℝ≥0∞) := [⟨mkT "edge" [.con (.int 1), .var 4], []⟩]

theorem bu_setup {d : GTm → ℝ≥0∞} (hd : ∀ x, d x ≠ 0 → ∃ b : GTm, x.1 = mkT "edge" [.con (.int 1), b.1]) : Setup .bottomUp frG frI {0} 10 buP buT d := by
  refine fr_setup (by decide +kernel) fun x hx => ?_
  obtain ⟨b, e⟩ := hd x hx
  have := TypeAn.Derives.rule (p := buP ++ buT) (I := frI) (r := ⟨mkT "edge" [.con (.int 1), .var 4], []⟩) (fun n => b) (by simp [buT]) (by simp)
  rw [e]
  simpa [TypeAn.gsub_eq, mkT] using this

theorem bu_chart : (chart .bottomUp frG 30 20 10 buP buT).map (fun c => c.1.map Prod.fst) =
    some [mkT "edge" [.con (.int 1), .var 12], mkT "path" [.con (.int 1), .var 15]] := by decide +kernel

theorem bu_patterns : ∀ ch k1, chart .bottomUp frG 30 20 10 buP buT = some (ch, k1) → Patterns ℝ≥0∞ (fun i => 2 * i) (fun i => 2 * i + 1) 30 5 ch := by
  intro ch k1 e
  have h := bu_chart
  rw [e] at h
  simp only [Option.map_some, Option.some.injEq] at h
  refine ⟨fun t ht => ?_, fun D eD => .inl ?_⟩
  · have : t.1 ∈ ch.map Prod.fst := List.mem_map_of_mem ht
    rw [h] at this
    simp only [List.mem_cons, List.not_mem_nil, or_false] at this
    rcases this with e | e <;> rw [e] <;> exact named_mk _ (by simp)
  · rw [h] at eD
    have : D.xs = [mkT "edge" [.con (.int 1), .var 1], mkT "path" [.con (.int 1), .var 1]] := by
      have : ((addAll (DisjointEst.add (fun i => 2 * i) (fun i => 2 * i + 1) 30) ⟨[], 5⟩
        [mkT "edge" [.con (.int 1), .var 12], mkT "path" [.con (.int 1), .var 15]]).map TSet.xs) =
          some [mkT "edge" [.con (.int 1), .var 1], mkT "path" [.con (.int 1), .var 1]] := by decide +kernel
      rw [eD] at this
      simpa using this
    rw [this]
    exact apart_fn (by simp [mkT]) (by simp [mkT, hfn])

/-- all values stay; the rule for `junk` is removed and the one for `path` gets the source `1` -/
example {d : GTm → ℝ≥0∞} (hd : ∀ x, d x ≠ 0 → ∃ b : GTm, x.1 = mkT "edge" [.con (.int 1), b.1]) :
    ∃ q k2, pruneSpec .bottomUp frG (fun i => 2 * i) (fun i => 2 * i + 1) 30 20 5 10 buP buT = some (q, k2) ∧
      q.map (fun r => (freshT 0 (r.head, subgoals r.body)).1) = [(mkT "path" [.con (.int 1), .var 0], [mkT "edge" [.con (.int 1), .var 0]])] ∧
      ∀ i x, rounds q d i x = rounds buP d i x := by
  have h : ((pruneSpec .bottomUp frG (fun i => 2 * i) (fun i => 2 * i + 1) 30 20 5 10 buP buT).map fun q =>
      q.1.map fun r => (freshT 0 (r.head, subgoals r.body)).1) = some [(mkT "path" [.con (.int 1), .var 0], [mkT "edge" [.con (.int 1), .var 0]])] := by decide +kernel
  obtain ⟨⟨q, k2⟩, e, h⟩ := Option.map_eq_some_iff.1 h
  exact ⟨q, k2, e, h, fun i x => C67_bottom_up (bu_setup hd) (fun a b h => by simpa using h) (fun a b h => by simpa using h) (fun i j => by omega) bu_patterns e i x⟩

example {d : GTm → ℝ≥0∞} (hd : ∀ x, d x ≠ 0 → ∃ b : GTm, x.1 = mkT "edge" [.con (.int 1), b.1]) :
    ∃ q, pruneKeep .bottomUp frG 30 20 10 buP buT = some q ∧ q.length = 1 ∧ ∀ i x, rounds q d i x = rounds buP d i x := by
  have h : ((pruneKeep .bottomUp frG 30 20 10 buP buT).map fun q => q.length) = some 1 := by decide +kernel
  obtain ⟨q, e, h⟩ := Option.map_eq_some_iff.1 h
  exact ⟨q, e, h, fun i x => C67_dead_bottom_up (bu_setup hd) e i x⟩

/-! ### Patterns that overlap -/

/-- `f(1,Y) += a(Y). f(3,4) += b. f(X,2) += e(X).` -/
def ovP : List (WRule ℝ≥0∞) := [⟨mkT "f" [.con (.int 1), .var 3], [.sub (mkT "a" [.var 3])]⟩, ⟨mkT "f" [.con (.int 3), .con (.int 4)], [.sub (mkT "b" [])]⟩,
  ⟨mkT "f" [.var 3, .con (.int 2)], [.sub (mkT "e" [.var 3])]⟩]
def ovT : List (WRule ℝ≥0∞) := [⟨mkT "a" [.var 3], []⟩, ⟨mkT "b" [], []⟩, ⟨mkT "e" [.var 3], []⟩]
def ovB : GTm := gsub (fun _ => TypeAn.gI 0) (mkT "b" [])
def ovF : GTm := gsub (fun _ => TypeAn.gI 0) (mkT "f" [.con (.int 3), .con (.int 4)])
/-- the only data: `b += 1.` -/
noncomputable def ovD : GTm → ℝ≥0∞ := fun x => if x = ovB then 1 else 0

theorem ov_setup : Setup .bottomUp frG frI {0} 10 ovP ovT ovD := by
  refine fr_setup (by decide +kernel) fun x hx => ?_
  have : x = ovB := by
    by_contra h
    exact hx (by simp [ovD, h])
  subst this
  exact TypeAn.Derives.rule (p := ovP ++ ovT) (I := frI) (r := ⟨mkT "b" [], []⟩) (fun _ => TypeAn.gI 0) (by simp [ovT]) (by simp)

theorem ov_chart : (chart .bottomUp frG 30 20 10 ovP ovT).map (fun c => (c.1.map Prod.fst, c.2)) =
    some ([mkT "a" [.var 14], mkT "b" [], mkT "e" [.var 15], mkT "f" [.con (.int 1), .var 18], mkT "f" [.con (.int 3), .con (.int 4)],
      mkT "f" [.var 21, .con (.int 2)]], 24) := by decide +kernel

def ovS : List Tm := [mkT "a" [.var 1], mkT "b" [], mkT "e" [.var 1], mkT "f" [.con (.int 3), .con (.int 4)], mkT "f" [.var 1, .var 3]]

theorem ov_pats : ((addAll (DisjointEst.add (fun i => 2 * i) (fun i => 2 * i + 1) 30) ⟨[], 5⟩ [mkT "a" [.var 14], mkT "b" [], mkT "e" [.var 15],
    mkT "f" [.con (.int 1), .var 18], mkT "f" [.con (.int 3), .con (.int 4)], mkT "f" [.var 21, .con (.int 2)]]).map TSet.xs) = some ovS := by decide +kernel

theorem inst_fn {c c' : String} {as bs : List Tm} (h : c ≠ c') (θ : Nat → GTm) : ¬ Inst (mkT c as) (gsub θ (mkT c' bs)) := by
  rintro ⟨φ, e⟩
  have := congrArg Subtype.val e
  simp [gsub, mkT, h] at this

theorem ov_multF : mult (fun _ => none) ovS ovF = 2 := by
  classical
  have h1 : Inst (mkT "f" [.con (.int 3), .con (.int 4)]) ovF := ⟨_, rfl⟩
  have h2 : Inst (mkT "f" [.var 1, .var 3]) ovF := ⟨fun n => if n = 1 then TypeAn.gI 3 else TypeAn.gI 4, by
    apply Subtype.ext
    simp [gsub, ovF, mkT, TypeAn.gI]⟩
  have h3 : bval (W := Nat) (fun _ => none) ovF.1 = none := by simp [ovF, gsub, mkT, bval]
  unfold mult
  rw [if_pos h3]
  have ha : ¬ Inst (mkT "a" [.var 1]) ovF := inst_fn (by decide) _
  have hb : ¬ Inst (mkT "b" []) ovF := inst_fn (by decide) _
  have he : ¬ Inst (mkT "e" [.var 1]) ovF := inst_fn (by decide) _
  simp [ovS, List.filter_cons, h1, h2, ha, hb, he]

theorem ov_multB : mult (fun _ => none) ovS ovB = 1 := by
  classical
  have h1 : Inst (mkT "b" []) ovB := ⟨_, rfl⟩
  have h3 : bval (W := Nat) (fun _ => none) ovB.1 = none := by simp [ovB, gsub, mkT, bval]
  unfold mult
  rw [if_pos h3]
  have ha : ¬ Inst (mkT "a" [.var 1]) ovB := inst_fn (by decide) _
  have he : ¬ Inst (mkT "e" [.var 1]) ovB := inst_fn (by decide) _
  have hf : ¬ Inst (mkT "f" [.con (.int 3), .con (.int 4)]) ovB := inst_fn (by decide) _
  have hg : ¬ Inst (mkT "f" [.var 1, .var 3]) ovB := inst_fn (by decide) _
  simp [ovS, List.filter_cons, h1, ha, he, hf, hg]

theorem ov_head1 (θ : Nat → GTm) : gsub θ (mkT "f" [.con (.int 1), .var 3]) ≠ ovF := fun e => by
  have := congrArg Subtype.val e
  simp [gsub, ovF, mkT] at this

theorem ov_head3 (θ : Nat → GTm) : gsub θ (mkT "f" [.var 3, .con (.int 2)]) ≠ ovF := fun e => by
  have := congrArg Subtype.val e
  simp [gsub, ovF, mkT] at this

def ov1 : WRule ℝ≥0∞ := ⟨mkT "f" [.con (.int 1), .var 3], [.sub (mkT "a" [.var 3])]⟩
def ov2 : WRule ℝ≥0∞ := ⟨mkT "f" [.con (.int 3), .con (.int 4)], [.sub (mkT "b" [])]⟩
def ov3 : WRule ℝ≥0∞ := ⟨mkT "f" [.var 3, .con (.int 2)], [.sub (mkT "e" [.var 3])]⟩

theorem ov_asg : Nonempty (Unique (Asg (rvars ov2))) := by
  have : IsEmpty {n // n ∈ rvars ov2} := ⟨fun n => by have := n.2; simp [ov2, rvars, mkT, bodyVars, litVars] at this⟩
  exact ⟨inferInstanceAs (Unique (∀ _ : {n // n ∈ rvars ov2}, GTm))⟩

theorem ov_T (v : GTm → ℝ≥0∞) : T ovP v ovF = v ovB := by
  have h1 : contrib ov1 v ovF = 0 := (isum_congr fun a => if_neg (ov_head1 _)).trans isum_zero
  have h3 : contrib ov3 v ovF = 0 := (isum_congr fun a => if_neg (ov_head3 _)).trans isum_zero
  have h2 : contrib ov2 v ovF = v ovB := by
    obtain ⟨_⟩ := ov_asg
    refine (isum_unique _).trans ?_
    rw [if_pos (by rfl)]
    have e2 : ∀ θ, gsub θ (mkT "b" []) = ovB := fun _ => rfl
    simp [ov2, bv, lv, e2]
  show contrib ov1 v ovF + (contrib ov2 v ovF + (contrib ov3 v ovF + 0)) = _
  rw [h1, h2, h3]
  simp

theorem ov_weighted (v : GTm → ℝ≥0∞) : (ovP.map (weighted (fun _ => none) ovS v ovF)).sum = 2 * v ovB := by
  have h1 : weighted (fun _ => none) ovS v ovF ov1 = 0 := (isum_congr fun a => if_neg (ov_head1 _)).trans isum_zero
  have h3 : weighted (fun _ => none) ovS v ovF ov3 = 0 := (isum_congr fun a => if_neg (ov_head3 _)).trans isum_zero
  have h2 : weighted (fun _ => none) ovS v ovF ov2 = 2 * v ovB := by
    obtain ⟨_⟩ := ov_asg
    refine (isum_unique _).trans ?_
    rw [if_pos (by rfl)]
    have e1 : ∀ θ, gsub θ (mkT "f" [.con (.int 3), .con (.int 4)]) = ovF := fun _ => rfl
    have e2 : ∀ θ, gsub θ (mkT "b" []) = ovB := fun _ => rfl
    simp [ov2, subgoals, bv, lv, e1, e2, ov_multF, ov_multB]
  show weighted _ ovS v ovF ov1 + (weighted _ ovS v ovF ov2 + (weighted _ ovS v ovF ov3 + 0)) = _
  rw [h1, h2, h3]
  simp

theorem ov_B {S : List Tm} (v : GTm → ℝ≥0∞) : (ovP.map (weighted (fun _ => none) S v ovB)).sum = 0 := by
  have h1 : weighted (fun _ => none) S v ovB ov1 = 0 := (isum_congr fun a => if_neg fun e => inst_fn (by decide) _ ⟨_, e⟩).trans isum_zero
  have h2 : weighted (fun _ => none) S v ovB ov2 = 0 := (isum_congr fun a => if_neg fun e => inst_fn (by decide) _ ⟨_, e⟩).trans isum_zero
  have h3 : weighted (fun _ => none) S v ovB ov3 = 0 := (isum_congr fun a => if_neg fun e => inst_fn (by decide) _ ⟨_, e⟩).trans isum_zero
  show weighted _ S v ovB ov1 + (weighted _ S v ovB ov2 + (weighted _ S v ovB ov3 + 0)) = _
  rw [h1, h2, h3]
  simp

theorem ov_TB (v : GTm → ℝ≥0∞) : T ovP v ovB = 0 := by
  have h1 : contrib ov1 v ovB = 0 := (isum_congr fun a => if_neg fun e => inst_fn (by decide) _ ⟨_, e⟩).trans isum_zero
  have h2 : contrib ov2 v ovB = 0 := (isum_congr fun a => if_neg fun e => inst_fn (by decide) _ ⟨_, e⟩).trans isum_zero
  have h3 : contrib ov3 v ovB = 0 := (isum_congr fun a => if_neg fun e => inst_fn (by decide) _ ⟨_, e⟩).trans isum_zero
  show contrib ov1 v ovB + (contrib ov2 v ovB + (contrib ov3 v ovB + 0)) = _
  rw [h1, h2, h3]
  simp

theorem ovD_F : ovD ovF = 0 := if_neg fun e => inst_fn (c := "f") (c' := "b") (by decide) _ ⟨_, e⟩
theorem ovD_B : ovD ovB = 1 := if_pos rfl

/-- **C67, patterns that overlap.**  `DisjointEst.add` joins `f(1,Y)` and `f(X,2)` into `f(X,Y)` and keeps `f(3,4)` beside
it, so `_prune_specialize` copies the rule `f(3,4) += b` twice: everything that `C67_bottom_up` requires holds, except that
the patterns are not disjoint, `prune` returns a program, and with the data `b += 1` the value of `f(3,4)` changes
from 1 to 2. -/
theorem C67_overlap : Setup .bottomUp frG frI {0} 10 ovP ovT ovD ∧
    ∃ q k, pruneSpec .bottomUp frG (fun i => 2 * i) (fun i => 2 * i + 1) 30 20 5 10 ovP ovT = some (q, k) ∧
      ∀ n, rounds ovP ovD (n + 2) ovF = 1 ∧ rounds q ovD (n + 2) ovF = 2 := by
  refine ⟨ov_setup, ?_⟩
  have h : (pruneSpec .bottomUp frG (fun i => 2 * i) (fun i => 2 * i + 1) 30 20 5 10 ovP ovT).isSome = true := by decide +kernel
  obtain ⟨⟨q, k2⟩, e⟩ := Option.isSome_iff_exists.1 h
  refine ⟨q, k2, e, fun n => ⟨?_, ?_⟩⟩
  · show ovD ovF + T ovP (rounds ovP ovD (n + 1)) ovF = 1
    rw [ov_T, ovD_F]
    show 0 + (ovD ovB + T ovP (rounds ovP ovD n) ovB) = 1
    rw [ov_TB, ovD_B]
    simp
  unfold pruneSpec at e
  split at e
  · cases e
  next ch k1 e1 =>
  have hc := ov_chart
  rw [e1] at hc
  simp only [Option.map_some, Option.some.injEq, Prod.mk.injEq] at hc
  obtain ⟨hc, rfl⟩ := hc
  unfold pruneSpecialize at e
  split at e
  · cases e
  next D eD =>
  have hD : D.xs = ovS := by
    have := ov_pats
    rw [← hc, eD] at this
    simpa using this
  rw [hD] at e
  have hS : ∀ s ∈ ovS, UserHead frG.ops s := by
    simp only [ovS, List.mem_cons, List.not_mem_nil, or_false, forall_eq_or_imp, forall_eq]
    refine ⟨?_, ?_, ?_, ?_, ?_⟩ <;> exact ⟨_, _, rfl, rfl, by simp⟩
  have hp := ov_setup.pok (show 10 ≤ 24 by decide)
  have hs : ∀ i x, T q (rounds q ovD i) x = (ovP.map (weighted (fun _ => none) ovS (rounds q ovD i) x)).sum := fun i x =>
    C67_step hS hp e (bzero_rounds hS hp e ov_setup.bzero i) x
  show ovD ovF + T q (rounds q ovD (n + 1)) ovF = 2
  rw [hs, ov_weighted, ovD_F]
  show 0 + 2 * (ovD ovB + T q (rounds q ovD n) ovB) = 2
  rw [hs, ov_B, ovD_B]
  simp

/-- `C67_step` on the same program: the table that is 5 at `b` and zero elsewhere gives `f(3,4)` the value 10 -/
example : ∃ q k, specRules (W := ℝ≥0∞) frG.ops frG.one 30 24 ovS ovP = some (q, k) ∧ T q (fun x => 5 * ovD x) ovF = 10 := by
  have h : (specRules (W := ℝ≥0∞) frG.ops frG.one 30 24 ovS ovP).isSome = true := by decide +kernel
  obtain ⟨⟨q, k2⟩, e⟩ := Option.isSome_iff_exists.1 h
  refine ⟨q, k2, e, ?_⟩
  have hS : ∀ s ∈ ovS, UserHead frG.ops s := by
    simp only [ovS, List.mem_cons, List.not_mem_nil, or_false, forall_eq_or_imp, forall_eq]
    refine ⟨?_, ?_, ?_, ?_, ?_⟩ <;> exact ⟨_, _, rfl, rfl, by simp⟩
  refine (C67_step hS (ov_setup.pok (show 10 ≤ 24 by decide)) e (fun y hy => ?_) ovF).trans ?_
  · show 5 * ovD y = 0
    rw [ov_setup.bzero y hy, mul_zero]
  · refine (ov_weighted _).trans ?_
    rw [ovD_B]
    norm_num

end

end PruneTypes
end Verif
