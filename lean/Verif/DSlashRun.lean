/-
What the slash transformation (`Slash.lean`, without the flag `lct`) produces, rule by rule, in terms of ground instances of rules.
-/
import Verif.SlashThm
import Verif.DUnfoldThm

set_option linter.unusedSectionVars false
set_option linter.unusedSimpArgs false

namespace Verif
open Tm Heap Sem
open Solver (noHeap good_noHeap)

namespace DSlash
open Slash (Kind Res St Inst Exo ExoH Useful UsefulN slashT otherT nmT sitem oitem fresh_inst old_disjoint)
open Linearize (Sigs isBuiltin)
open Unfold (subLit subRule derefR)
open Classical
variable {W : Type}

/-- ground instance of a body element -/
def glit (θ : Nat → GTm) : Lit W → Lit W
  | .val k => .val k
  | .sub t => .sub (gsub θ t).1

/-- `x` and `b` are head and body of a ground instance of the rule -/
def GI (r : WRule W) (x : GTm) (b : List (Lit W)) : Prop := ∃ θ, gsub θ r.head = x ∧ r.body.map (glit θ) = b

/-- two rules with the same ground instances -/
def Same (r s : WRule W) : Prop := ∀ x b, GI r x b ↔ GI s x b

theorem glit_congr {θ τ : Nat → GTm} {l : Lit W} (h : ∀ n ∈ litVars l, θ n = τ n) : glit θ l = glit τ l := by
  cases l with
  | val k => rfl
  | sub t => simp only [glit]; rw [gsub_congr h]

theorem map_glit_congr [CSemi W] {θ τ : Nat → GTm} {b : List (Lit W)} (h : ∀ n ∈ bodyVars b, θ n = τ n) : b.map (glit θ) = b.map (glit τ) :=
  List.map_congr_left fun _ hl => glit_congr fun n hn => h n (mem_bodyVars.2 ⟨_, hl, hn⟩)

theorem glit_sub (σ : Nat → Tm) (θ : Nat → GTm) (l : Lit W) : glit θ (subLit σ l) = glit (fun n => gsub θ (σ n)) l := by
  cases l with
  | val k => rfl
  | sub t => simp only [glit, subLit, Unfold.gsub_sub]

theorem map_glit_sub (σ : Nat → Tm) (θ : Nat → GTm) (b : List (Lit W)) : (b.map (subLit σ)).map (glit θ) = b.map (glit fun n => gsub θ (σ n)) := by
  rw [List.map_map]; exact List.map_congr_left fun l _ => glit_sub σ θ l

theorem gi_sub {σ : Nat → Tm} {r : WRule W} {x : GTm} {b : List (Lit W)} : GI (subRule σ r) x b ↔
    ∃ θ : Nat → GTm, gsub (fun n => gsub θ (σ n)) r.head = x ∧ r.body.map (glit fun n => gsub θ (σ n)) = b := by
  simp only [GI, subRule, Unfold.gsub_sub, map_glit_sub]

theorem same_ren [CSemi W] {ρ : Nat → Nat} {r : WRule W} (h : Set.InjOn ρ (rvars r)) : Same (renRule ρ r) r := by
  intro x b
  rw [DUnfold.renRule_eq, gi_sub]
  constructor
  · rintro ⟨θ, h1, h2⟩; exact ⟨_, h1, h2⟩
  · rintro ⟨θ, rfl, rfl⟩
    let τ : Nat → GTm := fun n => if hn : ∃ m ∈ rvars r, ρ m = n then θ hn.choose else g0
    have ht : ∀ m ∈ rvars r, gsub τ (.var (ρ m)) = θ m := by
      intro m hm
      have hn : ∃ m' ∈ rvars r, ρ m' = ρ m := ⟨m, hm, rfl⟩
      apply Subtype.ext
      show (τ (ρ m)).1 = _
      simp only [τ, dif_pos hn]
      rw [h hn.choose_spec.1 hm hn.choose_spec.2]
    refine ⟨τ, ?_, ?_⟩
    · exact gsub_congr fun n hn => ht n (by simp only [rvars, Finset.mem_union]; exact .inl hn)
    · exact map_glit_congr fun n hn => ht n (by simp only [rvars, Finset.mem_union]; exact .inr hn)

/-- what `add_rule` appends -/
theorem add_same [CSemi W] {fv : Nat → Nat} (hfv : Function.Injective fv) (st : St W) (r : WRule W) (kind : Kind) :
    ∃ r', (st.add fv r kind).out = st.out ++ [(r', kind)] ∧ st.k ≤ (st.add fv r kind).k ∧ Same r' r := by
  obtain ⟨ρ, h1, h2, h3⟩ := Slash.freshRule_spec hfv st.k r
  refine ⟨(Slash.freshRule fv st.k r).1, rfl, h3, ?_⟩
  rw [h1]; exact same_ren h2

/-- the item with or without its wrapper -/
noncomputable def wrap (c : Slash.Cfg) (h : Tm) : Tm := if Useful c h then otherT c.ot h else h

/-- what a rule of the new program is, by its kind -/
def Src (c : Slash.Cfg) (rules : List (WRule W)) (pos : Nat → Option Nat) (nodes : List Tm) (rk : WRule W × Kind) : Prop :=
  match rk.2 with
  | .base => Same rk.1 ⟨slashT c.sl c.X c.X, []⟩
  | .o n => ∃ r, rules[n]? = some r ∧ pos n = none ∧ Same rk.1 ⟨wrap c r.head, r.body⟩
  | .ss n => ∃ r j q, rules[n]? = some r ∧ pos n = some j ∧ r.body[j]? = some (.sub q) ∧
      Same rk.1 ⟨slashT c.sl r.head c.X, r.body.take j ++ .sub (slashT c.sl q c.X) :: r.body.drop (j + 1)⟩
  | .oo n => ∃ r j q, rules[n]? = some r ∧ pos n = some j ∧ r.body[j]? = some (.sub q) ∧ (¬ ∃ z, Inst c.X z ∧ Inst q z) ∧
      Same rk.1 ⟨wrap c r.head, r.body.take j ++ .sub (if Exo c q then q else otherT c.ot q) :: r.body.drop (j + 1)⟩
  | .ro => ∃ s ∈ nodes, ∀ x b, GI rk.1 x b ↔ Inst s x ∧
      b = .sub (otherT c.ot x.1) :: (if ∃ z, Inst c.X z ∧ Inst s z then [.sub (nmT c.lam x.1)] else [])
  | .rso => ∃ s ∈ nodes, ∃ s' ∈ nodes, ∀ x b, GI rk.1 x b ↔ ∃ z : GTm, Inst s x ∧ Inst s' z ∧ Inst c.X z ∧
      b = [.sub (if ExoH c s' then z.1 else otherT c.ot z.1), .sub (slashT c.sl x.1 z.1)]

section
variable [CSemi W] {rules : List (WRule W)} {pos : Nat → Option Nat} {nodes : List Tm}

/-- which rules there are for rule number `i` -/
def Has (c : Slash.Cfg) (pos : Nat → Option Nat) (r : WRule W) (i : Nat) (out : List (WRule W × Kind)) : Prop :=
  (pos i = none → ∃ t, (t, Kind.o i) ∈ out) ∧
  ∀ j, pos i = some j → ∃ q, r.body[j]? = some (.sub q) ∧ (∃ t, (t, Kind.ss i) ∈ out) ∧ ((¬ ∃ z, Inst c.X z ∧ Inst q z) → ∃ t, (t, Kind.oo i) ∈ out)

theorem Has.mono {c : Slash.Cfg} {r : WRule W} {i : Nat} {out out' : List (WRule W × Kind)} (h : Has c pos r i out) (hs : ∀ a ∈ out, a ∈ out') : Has c pos r i out' :=
  ⟨fun e => (h.1 e).imp fun _ h => hs _ h, fun j e => (h.2 j e).imp fun q h => ⟨h.1, h.2.1.imp fun _ h => hs _ h, fun e => (h.2.2 e).imp fun _ h => hs _ h⟩⟩

theorem ruleStep_made {c : Slash.Cfg} (hl : c.lct = false) (hfv : Function.Injective c.fv) {Y : Nat} {st st' : St W} {r : WRule W} {i : Nat}
    (hi : rules[i]? = some r) (ok : Slash.RuleOK c Y pos r i) (e : Slash.ruleStep c Y pos st r i = some st') :
    ∃ new, st'.out = st.out ++ new ∧ (∀ rk ∈ new, Src c rules pos nodes rk) ∧ Has c pos r i new := by
  have hdI : ∀ u, vars u ⊆ rvars r → ∀ t ∈ c.inputs, Disjoint (vars t) (vars u) := fun u hu t ht => by
    rw [Finset.disjoint_left]; intro n h1 h2; exact ok.inputs t ht n (hu h2) h1
  have hhead : vars r.head ⊆ rvars r := by intro n hn; simp [rvars, hn]
  unfold Slash.ruleStep at e
  cases hp : pos i with
  | none =>
    simp only [hp] at e
    have key : st' = st.add c.fv ⟨wrap c r.head, r.body⟩ (.o i) := by
      unfold wrap
      cases h1 : Slash.usefulOther c noHeap r.head with
      | none => simp [h1] at e
      | some b =>
        have c1 := Slash.useful_spec h1
        cases b with
        | true =>
          simp only [h1, Option.map_eq_some_iff] at e
          obtain ⟨o, h2, rfl⟩ := e
          have := Slash.other_spec (hdI _ hhead) h2
          rw [if_neg ok.notExo] at this
          rw [this]
        | false =>
          simp only [h1, Option.some.injEq] at e
          rw [if_neg fun h => by simpa using c1.2 h, e]
    obtain ⟨t, a1, _, a3⟩ := add_same hfv st ⟨wrap c r.head, r.body⟩ (.o i)
    refine ⟨[(t, .o i)], by rw [key, a1], by simpa [Src] using ⟨r, hi, hp, a3⟩, fun _ => ⟨t, by simp⟩, fun j e => ?_⟩
    rw [hp] at e; simp at e
  | some j =>
    simp only [hp] at e
    cases hbj : r.body[j]? with
    | none => simp [hbj] at e
    | some l =>
      cases l with
      | val w => simp [hbj] at e
      | sub q =>
        simp only [hbj] at e
        have hslot : Slash.slotOf pos r i = some (r.body.take j, q, r.body.drop (j + 1)) := by simp [Slash.slotOf, hp, hbj]
        have hq : vars q ⊆ rvars r := by
          intro n hn
          exact litVars_sub_rvars (List.mem_of_getElem? hbj) (by simpa [litVars] using hn)
        have hXq : Disjoint (vars c.X) (vars q) := by
          rw [Finset.disjoint_left]; intro n h1 h2; exact ok.X n (hq h2) h1
        have hbq : isBuiltin c.sig q = false := by
          cases h : isBuiltin c.sig q with
          | false => rfl
          | true => simp [h] at e
        simp only [hbq, Bool.false_eq_true, if_false] at e
        have hss : ∀ (L : List (Lit W)) q R, Slash.ssRule c Y r.head L q R = ⟨slashT c.sl r.head c.X, L ++ .sub (slashT c.sl q c.X) :: R⟩ := fun L q R => by
          simp [Slash.ssRule, hl]
        rw [hss] at e
        obtain ⟨t, a1, _, a3⟩ := add_same hfv st ⟨slashT c.sl r.head c.X, r.body.take j ++ .sub (slashT c.sl q c.X) :: r.body.drop (j + 1)⟩ (.ss i)
        have hsrc : Src c rules pos nodes (t, .ss i) := ⟨r, j, q, hi, hp, hbj, a3⟩
        cases hu : unifiesF c.f c.X q noHeap with
        | none => simp [hu] at e
        | some b =>
          have cu : b = true ↔ ∃ z, Inst c.X z ∧ Inst q z := by
            rw [Slash.unifies_iff hu]
            exact ⟨fun ⟨θ, h⟩ => Slash.meet_of_unify h, fun ⟨z, h1, h2⟩ => Slash.unify_of_meet hXq h1 h2⟩
          cases b with
          | true =>
            simp only [hu] at e
            split at e
            · simp only [Option.some.injEq] at e
              refine ⟨[(t, .ss i)], by rw [← e, a1], by simpa using hsrc, fun e => ?_, fun j' e' => ?_⟩
              · rw [hp] at e; simp at e
              · rw [hp, Option.some.injEq] at e'; subst e'
                exact ⟨q, hbj, ⟨t, by simp⟩, fun h => absurd (cu.1 rfl) h⟩
            · simp at e
          | false =>
            simp only [hu] at e
            have hm : ¬ ∃ z, Inst c.X z ∧ Inst q z := fun h => by simpa using cu.2 h
            cases h3 : Slash.other c noHeap r.head with
            | none => simp [h3] at e
            | some h =>
              cases h4 : Slash.other c noHeap q with
              | none => simp [h3, h4] at e
              | some o =>
                simp only [h3, h4, Option.some.injEq] at e
                have e3 := Slash.other_spec (hdI _ hhead) h3
                rw [if_neg ok.notExo] at e3
                have hqu : Useful c q := ⟨q, ok.used _ _ _ hslot, Tm.var, rfl⟩
                have e4 := Slash.other_spec (hdI _ hq) h4
                rw [if_pos hqu] at e4
                obtain ⟨t', b1, _, b3⟩ := add_same hfv (st.add c.fv ⟨slashT c.sl r.head c.X, r.body.take j ++ .sub (slashT c.sl q c.X) :: r.body.drop (j + 1)⟩ (.ss i))
                  ⟨h, r.body.take j ++ .sub o :: r.body.drop (j + 1)⟩ (.oo i)
                refine ⟨[(t, .ss i), (t', .oo i)], by rw [← e, b1, a1]; simp, ?_, fun e => ?_, fun j' e' => ?_⟩
                · intro rk hrk
                  simp only [List.mem_cons, List.not_mem_nil, or_false] at hrk
                  rcases hrk with rfl | rfl
                  · exact hsrc
                  · refine ⟨r, j, q, hi, hp, hbj, hm, ?_⟩
                    rw [e3, e4] at b3
                    exact b3
                · rw [hp] at e; simp at e
                · rw [hp, Option.some.injEq] at e'; subst e'
                  exact ⟨q, hbj, ⟨t, by simp⟩, fun _ => ⟨t', by simp⟩⟩

theorem ruleLoop_made {c : Slash.Cfg} (hl : c.lct = false) (hfv : Function.Injective c.fv) {Y : Nat} :
    ∀ {rs : List (WRule W)} {i : Nat} {st st' : St W}, (∀ n, rules[i + n]? = rs[n]?) → (∀ (n : Nat) r, rs[n]? = some r → Slash.RuleOK c Y pos r (i + n)) →
    Slash.ruleLoop c Y pos rs i st = some st' →
    ∃ new, st'.out = st.out ++ new ∧ (∀ rk ∈ new, Src c rules pos nodes rk) ∧ ∀ (n : Nat) r, rs[n]? = some r → Has c pos r (i + n) new
  | [], i, st, st', _, _, e => by
    simp only [Slash.ruleLoop, Option.some.injEq] at e
    subst e
    exact ⟨[], by simp, by simp, by simp⟩
  | r :: rs, i, st, st', hi, ok, e => by
    rw [Slash.ruleLoop] at e
    cases h1 : Slash.ruleStep c Y pos st r i with
    | none => simp [h1] at e
    | some st1 =>
      simp only [h1] at e
      obtain ⟨n1, a1, a2, a3⟩ := ruleStep_made (nodes := nodes) hl hfv (by simpa using hi 0) (by simpa using ok 0 r rfl) h1
      obtain ⟨n2, b1, b2, b3⟩ := ruleLoop_made hl hfv (fun n => by simpa [Nat.add_assoc, Nat.add_comm 1] using hi (n + 1))
        (fun n r h => by simpa [Nat.add_assoc, Nat.add_comm 1] using ok (n + 1) r (by simpa using h)) e
      refine ⟨n1 ++ n2, by rw [b1, a1, List.append_assoc], fun rk h => ?_, fun n r' h => ?_⟩
      · rcases List.mem_append.1 h with h | h
        · exact a2 rk h
        · exact b2 rk h
      · cases n with
        | zero =>
          simp only [List.getElem?_cons_zero, Option.some.injEq] at h
          subst h
          exact a3.mono fun a h => List.mem_append.2 (.inl h)
        | succ n =>
          have := (b3 n r' (by simpa using h)).mono (out' := n1 ++ n2) fun a h => List.mem_append.2 (.inr h)
          simpa [Nat.add_assoc, Nat.add_comm 1] using this

/-- the instances of a rule `rso` -/
theorem rso_gi {c : Slash.Cfg} {x' y o : Tm} {bs : List (Nat × Tm)} (hs : Spec noHeap c.X x' (some bs))
    (h1 : Disjoint (vars c.X) (vars x')) (h2 : Disjoint (vars c.X ∪ vars x') (vars y)) {O : GTm → Tm} (hO : ∀ θ, (gsub θ o).1 = O (gsub θ x')) (x : GTm) (b : List (Lit W)) :
    GI (subRule (res (bindAll noHeap bs)) ⟨y, [.sub o, .sub (slashT c.sl y x')]⟩) x b ↔
      ∃ z : GTm, Inst y x ∧ Inst x' z ∧ Inst c.X z ∧ b = [.sub (O z), .sub (slashT c.sl x.1 z.1)] := by
  cases hs with
  | ok _ hg hτ hnd hbs hvs =>
  set σ := res (bindAll noHeap bs) with hσ
  have hXx : c.X.sub σ = x'.sub σ := ((hτ σ).1 hg.respects_res).2
  rw [gi_sub]
  constructor
  · rintro ⟨θ, rfl, rfl⟩
    refine ⟨gsub (fun n => gsub θ (σ n)) x', ⟨_, rfl⟩, ⟨_, rfl⟩, ⟨fun n => gsub θ (σ n), ?_⟩, ?_⟩
    · rw [← Unfold.gsub_sub, ← Unfold.gsub_sub, hXx]
    · simp only [List.map_cons, List.map_nil, glit, hO, Slash.gsub_slashT]
      rfl
  · rintro ⟨z, ⟨θ1, rfl⟩, ⟨θ2, rfl⟩, ⟨θ3, e3⟩, rfl⟩
    let τ : Nat → GTm := fun n => if n ∈ vars y then θ1 n else if n ∈ vars x' then θ2 n else θ3 n
    have t1 : gsub τ y = gsub θ1 y := gsub_congr fun n hn => by simp [τ, hn]
    have t2 : gsub τ x' = gsub θ2 x' := gsub_congr fun n hn => by
      have : n ∉ vars y := fun h => Finset.disjoint_left.1 h2 (by simp [hn]) h
      simp [τ, hn, this]
    have t3 : gsub τ c.X = gsub θ3 c.X := gsub_congr fun n hn => by
      have a : n ∉ vars y := fun h => Finset.disjoint_left.1 h2 (by simp [hn]) h
      have b : n ∉ vars x' := fun h => Finset.disjoint_left.1 h1 hn h
      simp [τ, a, b]
    have hr : Respects (bindAll noHeap bs) fun n => (τ n).1 := (hτ _).2 ⟨Slash.respects_noHeap _, congrArg Subtype.val (t3.trans (e3.trans t2.symm))⟩
    have hστ : (fun n => gsub τ (σ n)) = τ := by
      funext n
      apply Subtype.ext
      have := hg.sub_res hr (.var n)
      simpa [gsub] using this
    refine ⟨τ, ?_, ?_⟩
    · rw [hστ, t1]
    · rw [hστ]
      simp only [List.map_cons, List.map_nil, glit, hO, Slash.gsub_slashT, t2, t1]
      rfl

theorem rsoLoop_made {c : Slash.Cfg} {k0 : Nat} (E : Slash.Env c k0) {y s : Tm} (hys : ∀ z, Inst y z ↔ Inst s z) (hsn : s ∈ nodes) :
    ∀ {ss : List Tm} {st st' : St W}, (∀ s ∈ ss, Named s) → (∀ s ∈ ss, s ∈ nodes) → k0 ≤ st.k →
    Slash.OldT c.fv st.k y → Disjoint (vars c.X) (vars y) → Slash.rsoLoop c y ss st = some st' →
    ∃ new, st'.out = st.out ++ new ∧ (∀ rk ∈ new, Src c rules pos nodes rk) ∧
      ∀ s' ∈ ss, (∃ z, Inst c.X z ∧ Inst s' z) → ∃ t, (t, Kind.rso) ∈ new ∧ ∀ x b, GI t x b ↔ ∃ z : GTm, Inst s x ∧ Inst s' z ∧ Inst c.X z ∧
        b = [.sub (if ExoH c s' then z.1 else otherT c.ot z.1), .sub (slashT c.sl x.1 z.1)]
  | [], st, st', _, _, _, _, _, e => by
    simp only [Slash.rsoLoop, Option.some.injEq] at e
    subst e
    exact ⟨[], by simp, by simp, by simp⟩
  | s' :: ss, st, st', hn, hsub, hk, hy, hXy, e => by
    rw [Slash.rsoLoop] at e
    set x := freshV c.fv st.k s' with hx
    have hxk : st.k ≤ x.2 := (freshV_spec E.fv st.k s').2.1
    have hXx : Disjoint (vars c.X) (vars x.1) := old_disjoint E.fv ((E.useful _ E.X).mono hk) s'
    have hyx : Disjoint (vars y) (vars x.1) := old_disjoint E.fv hy s'
    obtain ⟨r, hs, hrun⟩ := unify_run good_noHeap c.X x.1
    cases hu : unifyF c.f c.X x.1 (Slash.rsoBody c y x.1) noHeap { st with k := x.2 } with
    | none => simp [hu] at e
    | some res =>
      have hr := hrun _ _ _ _ hu
      have key : ∃ new, res.2.1.out = st.out ++ new ∧ st.k ≤ res.2.1.k ∧ (∀ rk ∈ new, Src c rules pos nodes rk) ∧
          ((∃ z, Inst c.X z ∧ Inst s' z) → ∃ t, (t, Kind.rso) ∈ new ∧ ∀ x b, GI t x b ↔ ∃ z : GTm, Inst s x ∧ Inst s' z ∧ Inst c.X z ∧
            b = [.sub (if ExoH c s' then z.1 else otherT c.ot z.1), .sub (slashT c.sl x.1 z.1)]) := by
        cases r with
        | none =>
          simp only [run, Option.some.injEq] at hr
          rw [← hr]
          refine ⟨[], by simp, hxk, by simp, ?_⟩
          rintro ⟨z, h1, h2⟩
          exact absurd ⟨h1, (fresh_inst E.fv st.k s' z).2 h2⟩ (Slash.no_meet hXx hs z)
        | some bs =>
          simp only [run] at hr
          cases hb : Slash.rsoBody c y x.1 (bindAll noHeap bs) { st with k := x.2 } with
          | none => simp [hb] at hr
          | some p =>
            simp only [hb, Option.some.injEq] at hr
            have hst : res.2.1 = p.2.1 := by rw [← hr]
            rw [hst]
            unfold Slash.rsoBody at hb
            cases h1 : Slash.other c (bindAll noHeap bs) x.1 with
            | none => simp [h1] at hb
            | some o =>
              simp only [h1] at hb
              cases h2 : derefR (bindAll noHeap bs) c.f (⟨y, [.sub o, .sub (slashT c.sl y x.1)]⟩ : WRule W) with
              | none => simp [h2] at hb
              | some rr =>
                simp only [h2, Option.some.injEq] at hb
                have hg : Good (bindAll noHeap bs) := by cases hs with | ok _ hg => exact hg
                have hrr := Slash.derefR_eq hg h2
                have ho := Slash.other_heap hs E.X E.inputsX (fun i hi => old_disjoint E.fv ((E.inputs i hi).mono hk) s') hXx h1
                obtain ⟨t, a1, a2, a3⟩ := add_same E.fv ({ st with k := x.2 } : St W) rr .rso
                have hgi : ∀ z b, GI t z b ↔ ∃ w : GTm, Inst s z ∧ Inst s' w ∧ Inst c.X w ∧
                    b = [.sub (if ExoH c s' then w.1 else otherT c.ot w.1), .sub (slashT c.sl z.1 w.1)] := by
                  intro z b
                  rw [a3 z b, hrr, rso_gi (O := fun w => if ExoH c s' then w.1 else otherT c.ot w.1) hs hXx
                    (by rw [Finset.disjoint_union_left]; exact ⟨hXy, hyx.symm⟩)]
                  · simp only [hys, hx, fresh_inst E.fv]
                  · intro θ
                    rw [ho]
                    by_cases hE : ExoH c s'
                    · rw [if_pos ((Slash.exoH_fresh E.fv st.k (hn s' (by simp))).2 hE), if_pos hE]
                    · rw [if_neg (fun h => hE ((Slash.exoH_fresh E.fv st.k (hn s' (by simp))).1 h)), if_neg hE, Slash.gsub_otherT]; rfl
                refine ⟨[(t, .rso)], by rw [← hb]; exact a1, by rw [← hb]; exact le_trans hxk a2, ?_, fun _ => ⟨t, by simp, hgi⟩⟩
                intro rk hrk
                rw [List.mem_singleton] at hrk
                subst hrk
                exact ⟨s, hsn, s', hsub s' (by simp), hgi⟩
      obtain ⟨n1, k1, k2, k3, k4⟩ := key
      obtain ⟨h', stm, sg⟩ := res
      cases sg with
      | brk => simp [hu] at e
      | exc => simp [hu] at e
      | done =>
        simp only [hu] at e
        obtain ⟨n2, b1, b2, b3⟩ := rsoLoop_made E hys hsn (fun s hs => hn s (by simp [hs])) (fun s hs => hsub s (by simp [hs])) (le_trans hk k2) (hy.mono k2) hXy e
        refine ⟨n1 ++ n2, by rw [b1, k1, List.append_assoc], fun rk h => ?_, fun s1 h1 hm => ?_⟩
        · rcases List.mem_append.1 h with h | h
          · exact k3 rk h
          · exact b2 rk h
        · rcases List.mem_cons.1 h1 with rfl | h1
          · obtain ⟨t, ht, h⟩ := k4 hm
            exact ⟨t, List.mem_append.2 (.inl ht), h⟩
          · obtain ⟨t, ht, h⟩ := b3 s1 h1 hm
            exact ⟨t, List.mem_append.2 (.inr ht), h⟩

/-- the instances of a rule `ro` -/
theorem ro_gi {ot : Const} {y : Tm} {b : List (Lit W)} {B : GTm → List (Lit W)} (hb : ∀ θ, b.map (glit θ) = B (gsub θ y)) (x : GTm) (l : List (Lit W)) :
    GI ⟨y, .sub (otherT ot y) :: b⟩ x l ↔ Inst y x ∧ l = .sub (otherT ot x.1) :: B x := by
  constructor
  · rintro ⟨θ, rfl, rfl⟩
    exact ⟨⟨θ, rfl⟩, by simp only [List.map_cons, glit, Slash.gsub_otherT, hb]; rfl⟩
  · rintro ⟨⟨θ, rfl⟩, rfl⟩
    exact ⟨θ, rfl, by simp only [List.map_cons, glit, Slash.gsub_otherT, hb]; rfl⟩

theorem roStep_made {c : Slash.Cfg} {k0 : Nat} (E : Slash.Env c k0) {s : Tm} (hs : Named s) (hsn : s ∈ nodes) (hex : ¬ Exo c s) {k : Nat} (hk : k0 ≤ k) {st st' : St W}
    (hst : st.k = (freshV c.fv k s).2) (e : Slash.roStep c (freshV c.fv k s).1 st = some st') :
    ∃ new, st'.out = st.out ++ new ∧ (∀ rk ∈ new, Src c rules pos nodes rk) ∧
      (UsefulN c s → (¬ ∃ z, Inst c.X z ∧ Inst s z) → ∃ t, (t, Kind.ro) ∈ new ∧ ∀ x, Inst s x → GI t x [.sub (otherT c.ot x.1)]) := by
  set y := freshV c.fv k s with hy
  unfold Slash.roStep at e
  cases h1 : Slash.usefulOther c noHeap y.1 with
  | none => simp [h1] at e
  | some b =>
    have c1 := (Slash.useful_spec h1).trans (Slash.useful_fresh E hk s)
    cases b with
    | false =>
      simp only [h1, Option.some.injEq] at e
      subst e
      have : ¬ UsefulN c s := fun h => by simpa using c1.2 h
      exact ⟨[], by simp, by simp, fun h => absurd h this⟩
    | true =>
      have hU : UsefulN c s := c1.1 rfl
      simp only [h1] at e
      set x := freshV c.fv st.k c.X with hx
      have hdy : ∀ i ∈ c.inputs, Disjoint (vars i) (vars y.1) := fun i hi => old_disjoint E.fv ((E.inputs i hi).mono hk) s
      have hyx : Disjoint (vars y.1) (vars x.1) := by
        have := Slash.old_fresh E.fv k s
        rw [← hy, ← hst] at this
        exact old_disjoint E.fv this c.X
      have hoth : ∀ o, Slash.other c noHeap y.1 = some o → o = otherT c.ot y.1 := fun o ho => by
        have := Slash.other_spec hdy ho
        rwa [if_neg (fun h => hex ((Slash.exo_fresh E.fv k hs).1 h)), if_pos ((Slash.useful_fresh E hk s).2 hU)] at this
      have one : ∀ (b : List (Lit W)) (st1 : St W) (B : GTm → List (Lit W)), st1.out = st.out → (∀ θ, b.map (glit θ) = B (gsub θ y.1)) →
          ((some st1).bind fun st => (Slash.other c noHeap y.1).map fun o => st.add c.fv ⟨y.1, .sub o :: b⟩ .ro) = some st' →
          ∃ t, st'.out = st.out ++ [(t, .ro)] ∧ ∀ z l, GI t z l ↔ Inst s z ∧ l = .sub (otherT c.ot z.1) :: B z := by
        intro b st1 B ho1 hB e
        simp only [Option.bind_some, Option.map_eq_some_iff] at e
        obtain ⟨o, h2, rfl⟩ := e
        have := hoth o h2
        subst this
        obtain ⟨t, a1, _, a3⟩ := add_same E.fv st1 ⟨y.1, .sub (otherT c.ot y.1) :: b⟩ .ro
        refine ⟨t, by rw [a1, ho1], fun z l => ?_⟩
        rw [a3 z l, ro_gi hB]
        simp only [hy, fresh_inst E.fv]
      cases h2 : Slash.notMatches (W := W) c x.1 y.1 with
      | none => simp [h2] at e
      | some cs =>
        simp only [h2] at e
        unfold Slash.notMatches at h2
        split at h2
        · rename_i n hxv
          simp only [Option.some.injEq] at h2
          subst h2
          simp only [List.foldl_nil, Option.some.injEq] at e
          subst e
          refine ⟨[], by simp, by simp, fun _ h => absurd ?_ h⟩
          have hz : Inst s (gsub (fun _ => g0) s) := ⟨_, rfl⟩
          exact ⟨_, (fresh_inst E.fv st.k c.X _).1 (by rw [← hx, hxv]; exact Slash.inst_var n _), hz⟩
        · cases h3 : unifiesF c.f x.1 y.1 noHeap with
          | none => simp [h3] at h2
          | some b =>
            have cu : b = true ↔ ∃ z, Inst c.X z ∧ Inst s z := by
              rw [Slash.unifies_iff h3]
              constructor
              · rintro ⟨θ, h⟩
                obtain ⟨z, h1, h2⟩ := Slash.meet_of_unify h
                exact ⟨z, (fresh_inst E.fv st.k c.X z).1 h1, (fresh_inst E.fv k s z).1 h2⟩
              · rintro ⟨z, h1, h2⟩
                exact Slash.unify_of_meet hyx.symm ((fresh_inst E.fv _ _ z).2 h1) ((fresh_inst E.fv k s z).2 h2)
            cases b with
            | false =>
              have hm : ¬ ∃ z, Inst c.X z ∧ Inst s z := fun h => by simpa using cu.2 h
              simp only [h3, Option.some.injEq] at h2
              subst h2
              simp only [List.foldl_cons, List.foldl_nil] at e
              obtain ⟨t, a1, a2⟩ := one [] { st with k := x.2 } (fun _ => []) rfl (by simp) e
              refine ⟨_, a1, ?_, fun _ _ => ⟨t, by simp, fun z hz => (a2 z _).2 ⟨hz, rfl⟩⟩⟩
              intro rk hrk
              rw [List.mem_singleton] at hrk
              subst hrk
              refine ⟨s, hsn, fun z l => ?_⟩
              rw [if_neg hm]; exact a2 z l
            | true =>
              have hm := cu.1 rfl
              simp only [h3, Option.some.injEq] at h2
              subst h2
              simp only [List.foldl_cons, List.foldl_nil] at e
              obtain ⟨t, a1, a2⟩ := one [.sub (nmT c.lam y.1)] { st with k := x.2 } (fun z => [.sub (nmT c.lam z.1)]) rfl
                (by intro θ; simp only [List.map_cons, List.map_nil, glit, Slash.gsub_nmT]; rfl) e
              refine ⟨_, a1, ?_, fun _ h => absurd hm h⟩
              intro rk hrk
              rw [List.mem_singleton] at hrk
              subst hrk
              refine ⟨s, hsn, fun z l => ?_⟩
              rw [if_pos hm]; exact a2 z l

theorem nodeLoop_made {c : Slash.Cfg} {k0 : Nat} (E : Slash.Env c k0) (hn : ∀ s ∈ nodes, Named s) (hd : ∀ s ∈ nodes, ∀ i ∈ c.inputs, Disjoint (vars i) (vars s)) :
    ∀ {ss : List Tm} {st st' : St W}, (∀ s ∈ ss, s ∈ nodes) → k0 ≤ st.k → Slash.nodeLoop c nodes ss st = some st' →
    ∃ new, st'.out = st.out ++ new ∧ (∀ rk ∈ new, Src c rules pos nodes rk) ∧ ∀ s ∈ ss, ¬ Exo c s →
      (UsefulN c s → (¬ ∃ z, Inst c.X z ∧ Inst s z) → ∃ t, (t, Kind.ro) ∈ new ∧ ∀ x, Inst s x → GI t x [.sub (otherT c.ot x.1)]) ∧
      ∀ s' ∈ nodes, (∃ z, Inst c.X z ∧ Inst s' z) → ∃ t, (t, Kind.rso) ∈ new ∧ ∀ x b, GI t x b ↔ ∃ z : GTm, Inst s x ∧ Inst s' z ∧ Inst c.X z ∧
        b = [.sub (if ExoH c s' then z.1 else otherT c.ot z.1), .sub (slashT c.sl x.1 z.1)]
  | [], st, st', _, _, e => by
    simp only [Slash.nodeLoop, Option.some.injEq] at e
    subst e
    exact ⟨[], by simp, by simp, by simp⟩
  | s :: ss, st, st', hsub, hk, e => by
    rw [Slash.nodeLoop] at e
    have hs : s ∈ nodes := hsub s (by simp)
    cases h1 : Slash.nodeStep c nodes s st with
    | none => simp [h1] at e
    | some st1 =>
      simp only [h1] at e
      have key : ∃ new, st1.out = st.out ++ new ∧ st.k ≤ st1.k ∧ (∀ rk ∈ new, Src c rules pos nodes rk) ∧ (¬ Exo c s →
          (UsefulN c s → (¬ ∃ z, Inst c.X z ∧ Inst s z) → ∃ t, (t, Kind.ro) ∈ new ∧ ∀ x, Inst s x → GI t x [.sub (otherT c.ot x.1)]) ∧
          ∀ s' ∈ nodes, (∃ z, Inst c.X z ∧ Inst s' z) → ∃ t, (t, Kind.rso) ∈ new ∧ ∀ x b, GI t x b ↔ ∃ z : GTm, Inst s x ∧ Inst s' z ∧ Inst c.X z ∧
            b = [.sub (if ExoH c s' then z.1 else otherT c.ot z.1), .sub (slashT c.sl x.1 z.1)]) := by
        unfold Slash.nodeStep at h1
        cases h2 : Slash.exo c noHeap s with
        | none => simp [h2] at h1
        | some b =>
          have c2 := Slash.exo_spec (hd s hs) h2
          cases b with
          | true =>
            simp only [h2, Option.some.injEq] at h1
            subst h1
            exact ⟨[], by simp, le_refl _, by simp, fun h => absurd (c2.1 rfl) h⟩
          | false =>
            have hex : ¬ Exo c s := fun h => by simpa using c2.2 h
            simp only [h2] at h1
            have hyk := (freshV_spec E.fv st.k s).2.1
            cases h3 : Slash.roStep c (freshV c.fv st.k s).1 ({ st with k := (freshV c.fv st.k s).2 } : St W) with
            | none => simp [h3] at h1
            | some st2 =>
              simp only [h3] at h1
              obtain ⟨_, _, a2, _⟩ := Slash.roStep_spec E (hn s hs) hex hk rfl h3
              have a2' : (freshV c.fv st.k s).2 ≤ st2.k := a2
              obtain ⟨n1, a1, a3, a4⟩ := roStep_made (rules := rules) (pos := pos) E (hn s hs) hs hex hk rfl h3
              obtain ⟨_, _, b2, _⟩ := Slash.rsoLoop_spec E (fresh_inst E.fv st.k s) hn (by omega) ((Slash.old_fresh E.fv st.k s).mono a2)
                (old_disjoint E.fv ((E.useful _ E.X).mono hk) s) h1
              obtain ⟨n2, b1, b3, b4⟩ := rsoLoop_made (rules := rules) (pos := pos) E (fresh_inst E.fv st.k s) hs hn (fun s h => h) (by omega) ((Slash.old_fresh E.fv st.k s).mono a2)
                (old_disjoint E.fv ((E.useful _ E.X).mono hk) s) h1
              refine ⟨n1 ++ n2, by rw [b1, a1, List.append_assoc], by omega, fun rk h => ?_, fun _ => ⟨fun h h' => ?_, fun s' h h' => ?_⟩⟩
              · rcases List.mem_append.1 h with h | h
                · exact a3 rk h
                · exact b3 rk h
              · obtain ⟨t, ht, h⟩ := a4 h h'
                exact ⟨t, List.mem_append.2 (.inl ht), h⟩
              · obtain ⟨t, ht, h⟩ := b4 s' h h'
                exact ⟨t, List.mem_append.2 (.inr ht), h⟩
      obtain ⟨n1, a1, a2, a3, a4⟩ := key
      obtain ⟨n2, b1, b2, b3⟩ := nodeLoop_made E hn hd (fun s hs => hsub s (by simp [hs])) (le_trans hk a2) e
      refine ⟨n1 ++ n2, by rw [b1, a1, List.append_assoc], fun rk h => ?_, fun s1 h1 hex => ?_⟩
      · rcases List.mem_append.1 h with h | h
        · exact a3 rk h
        · exact b2 rk h
      · have : ∃ m : List (WRule W × Kind), (∀ a ∈ m, a ∈ n1 ++ n2) ∧ (UsefulN c s1 → (¬ ∃ z, Inst c.X z ∧ Inst s1 z) → ∃ t, (t, Kind.ro) ∈ m ∧ ∀ x, Inst s1 x → GI t x [.sub (otherT c.ot x.1)]) ∧
          ∀ s' ∈ nodes, (∃ z, Inst c.X z ∧ Inst s' z) → ∃ t, (t, Kind.rso) ∈ m ∧ ∀ x b, GI t x b ↔ ∃ z : GTm, Inst s1 x ∧ Inst s' z ∧ Inst c.X z ∧
            b = [.sub (if ExoH c s' then z.1 else otherT c.ot z.1), .sub (slashT c.sl x.1 z.1)] := by
          rcases List.mem_cons.1 h1 with rfl | h1
          · exact ⟨n1, fun a h => List.mem_append.2 (.inl h), a4 hex⟩
          · exact ⟨n2, fun a h => List.mem_append.2 (.inr h), b3 s1 h1 hex⟩
        obtain ⟨m, hm, c1, c2⟩ := this
        exact ⟨fun h h' => (c1 h h').imp fun t h => ⟨hm _ h.1, h.2⟩, fun s' h h' => (c2 s' h h').imp fun t h => ⟨hm _ h.1, h.2⟩⟩

end

/-- what the transformation has produced -/
structure Made (rules : List (WRule W)) (pos : Nat → Option Nat) (res : Res W) : Prop where
  src : ∀ rk ∈ res.rules, Src res.c rules pos res.nodes rk
  base : ∃ t, (t, Kind.base) ∈ res.rules
  has : ∀ (n : Nat) r, rules[n]? = some r → ∃ out : List (WRule W × Kind), (∀ a ∈ out, a ∈ res.rules) ∧ (pos n = none → ∃ t, (t, Kind.o n) ∈ out) ∧
    ∀ j, pos n = some j → ∃ q, r.body[j]? = some (.sub q) ∧ (∃ t, (t, Kind.ss n) ∈ out) ∧ ((¬ ∃ z, Inst res.c.X z ∧ Inst q z) → ∃ t, (t, Kind.oo n) ∈ out)
  node : ∀ s ∈ res.nodes, ¬ Exo res.c s →
    (UsefulN res.c s → (¬ ∃ z, Inst res.c.X z ∧ Inst s z) → ∃ t, (t, Kind.ro) ∈ res.rules ∧ ∀ x, Inst s x → GI t x [.sub (otherT res.c.ot x.1)]) ∧
    ∀ s' ∈ res.nodes, (∃ z, Inst res.c.X z ∧ Inst s' z) → ∃ t, (t, Kind.rso) ∈ res.rules ∧ ∀ x b, GI t x b ↔ ∃ z : GTm, Inst s x ∧ Inst s' z ∧ Inst res.c.X z ∧
      b = [.sub (if ExoH res.c s' then z.1 else otherT res.c.ot z.1), .sub (slashT res.c.sl x.1 z.1)]

open Slash (Setup strs usefulList) in
theorem made [CSemi W] {f : Nat} {sig : Sigs} {fv cv : Nat → Nat} {lam : Const} {rules : List (WRule W)} {inputs : List Tm}
    {pos : Nat → Option Nat} {x : Tm} {k : Nat} {res : Res W} (S : Setup sig fv cv rules inputs pos k)
    (e : Slash.slash false f sig fv cv lam rules inputs pos x k = some res) : Made rules pos res := by
  unfold Slash.slash at e
  cases h1 : GenFunctor.genLocal (strs rules) "/" f with
  | none => simp [h1] at e
  | some sl =>
  cases h2 : GenFunctor.genLocal (strs rules) "$other" f with
  | none => simp [h1, h2] at e
  | some ot =>
  simp only [h1, h2] at e
  set X := freshV fv k x with hX
  cases h3 : addAll (DisjointEst.add fv cv f) ⟨[], X.2⟩ (Prune.terms sig rules inputs) with
  | none => simp [h3] at e
  | some N =>
  simp only [h3] at e
  set c : Slash.Cfg := ⟨false, sig, inputs, fv, cv, f, lam, .str sl, .str ot, X.1, X.1 :: usefulList pos rules 0⟩ with hc
  simp only [Bool.false_eq_true, if_false] at e
  set base : St W := (⟨[], N.k + 1⟩ : St W).add fv ⟨slashT c.sl X.1 X.1, []⟩ .base with hbase
  cases h4 : Slash.ruleLoop c (fv N.k) pos rules 0 base with
  | none => simp [h4] at e
  | some st1 =>
  simp only [h4] at e
  cases h5 : Slash.nodeLoop c N.xs N.xs st1 with
  | none => simp [h5] at e
  | some st2 =>
  simp only [h5, Option.some.injEq] at e
  subst e
  have hXk : k ≤ X.2 := (freshV_spec S.ifv k x).2.1
  have hNk : X.2 ≤ N.k := Slash.addAll_k S.ifv h3
  have nsl := Slash.name_new h1
  have not := Slash.name_new h2
  obtain ⟨a, ha⟩ := Slash.genLocal_prefix h1
  obtain ⟨b, hb⟩ := Slash.genLocal_prefix h2
  have hne : c.sl ≠ c.ot := by
    show Const.str sl ≠ .str ot
    rw [ha, hb]
    intro h
    exact Slash.slash_ne_other (Const.str.inj h)
  have hnamed : ∀ t ∈ Prune.terms sig rules inputs, Named t := fun t ht => by
    rcases Slash.mem_terms ht with h | ⟨r, hr, rfl | ⟨h, _⟩⟩
    · exact S.named t h
    · exact (S.plain.named r hr).head
    · exact (S.plain.named r hr).body t h
  have hinv := DisjointEst.addAll_inv S.ifv S.icv S.sep _ _ _ [] S.terms ⟨by simp, by simp, by simp⟩ h3
  have hsig : ∀ s ∈ N.xs, Slash.SigIn (Prune.terms sig rules inputs) s := Slash.addAll_sig S.ifv S.icv (fun t ht => ⟨ht, hnamed t ht⟩) (by simp) h3
  have hold : ∀ {t : Tm}, (∀ n ∈ vars t, ∀ j ≥ k, n ≠ fv j) → Disjoint (vars t) (vars X.1) := fun {t} h => old_disjoint S.ifv h x
  have hexo : ∀ r ∈ rules, ¬ Exo c r.head := by
    rintro r hr (h | ⟨i, hi, y, h1, h2⟩)
    · rw [S.plain.heads r hr] at h; simp at h
    · apply S.heads r hr i hi
      rw [← Slash.inst_sig (S.plain.named r hr).head h2, Slash.inst_sig (S.named i hi) h1]
  obtain ⟨t0, a1, a2, a3⟩ := add_same S.ifv (⟨[], N.k + 1⟩ : St W) ⟨slashT c.sl X.1 X.1, []⟩ .base
  rw [← hbase] at a1 a2
  have a2' : N.k + 1 ≤ base.k := a2
  have hok : ∀ r ∈ rules, NamedRule r ∧ hfn r.head ≠ some c.sl ∧ hfn r.head ≠ some c.ot ∧ ¬ Exo c r.head ∧
      (∀ t ∈ c.inputs, ∀ n ∈ rvars r, n ∉ vars t) ∧ (∀ n ∈ rvars r, n ∉ vars c.X) ∧ fv N.k ∉ rvars r :=
    fun r hr => ⟨S.plain.named r hr, (nsl r hr).1, (not r hr).1, hexo r hr,
    fun t ht n hn => S.apart r hr t ht n hn, fun n hn h => by
      have : n ∈ vars X.1 := h
      obtain ⟨i, hi, _, rfl⟩ := (freshV_spec S.ifv k x).2.2 n this
      exact S.oldR r hr _ hn i hi rfl, fun h => S.oldR r hr _ h N.k (by omega) rfl⟩
  obtain ⟨_, _, b2, b3, _⟩ := Slash.ruleLoop_spec (c := c) S.ifv hne hok (fun q hq => List.mem_cons_of_mem _ hq) h4
  have hget : ∀ (n : Nat) r, rules[n]? = some r → (r, Slash.slotOf pos r n) ∈ Slash.slots pos rules 0 := by
    have : ∀ (rs : List (WRule W)) (i n : Nat) r, rs[n]? = some r → (r, Slash.slotOf pos r (i + n)) ∈ Slash.slots pos rs i := by
      intro rs
      induction rs with
      | nil => intro i n r h; simp at h
      | cons a rs ih =>
        intro i n r h
        rw [Slash.slots]
        cases n with
        | zero => simp only [List.getElem?_cons_zero, Option.some.injEq] at h; subst h; simp
        | succ n =>
          have := ih (i + 1) n r (by simpa using h)
          rw [Nat.add_assoc, Nat.add_comm 1] at this
          exact List.mem_cons_of_mem _ this
    intro n r h
    have := this rules 0 n r h
    simpa using this
  obtain ⟨n1, b1, b4, b5⟩ := ruleLoop_made (rules := rules) (nodes := N.xs) (c := c) rfl S.ifv (i := 0) (fun n => by simp) (fun n r h => by
      obtain ⟨o1, o2, o3, o4, o5, o6, o7⟩ := hok r (List.mem_of_getElem? h)
      refine ⟨o1, o2, o3, o4, o5, o6, o7, fun L q R h' => ?_⟩
      refine List.mem_cons_of_mem _ (Slash.slots_useful.2 ⟨_, hget n r h, L, R, ?_⟩)
      simpa using h') h4
  have hslot : ∀ q ∈ usefulList pos rules 0, ∃ r ∈ rules, Lit.sub q ∈ r.body := fun q hq => by
    obtain ⟨r, hr, L, R, h⟩ := Slash.slots_useful.1 hq
    exact ⟨r.1, Slash.mem_slots hr, by rw [(b3 r hr L q R h).1]; simp⟩
  have E : Slash.Env c st1.k := ⟨S.ifv, fun i hi n hn j hj => (S.oldI i hi n hn).1 j (by omega), fun i hi => hold fun n hn => (S.oldI i hi n hn).1,
    by simp [hc], fun u hu => by
      have hu : u = X.1 ∨ u ∈ usefulList pos rules 0 := by simpa [hc] using hu
      rcases hu with rfl | hu
      · exact (Slash.old_fresh S.ifv k x).mono (show X.2 ≤ _ by omega)
      · obtain ⟨r, hr, hq⟩ := hslot u hu
        intro n hn j hj
        exact S.oldR r hr n (litVars_sub_rvars hq (by simpa [litVars] using hn)) j (by omega)⟩
  obtain ⟨n2, c1, c2, c3⟩ := nodeLoop_made (rules := rules) (pos := pos) E (fun s hs => (hsig s hs).named) (fun s hs i hi => by
    rw [Finset.disjoint_left]
    intro n hn hn'
    obtain ⟨j, e⟩ := hinv.canon s hs n hn'
    exact (S.oldI i hi n hn).2 j e) (fun s hs => hs) (le_refl _) h5
  have hout : st2.out = [(t0, .base)] ++ (n1 ++ n2) := by rw [c1, b1, a1]; simp
  have i1 : ∀ a ∈ n1, a ∈ st2.out := fun a h => by rw [hout]; simp [h]
  have i2 : ∀ a ∈ n2, a ∈ st2.out := fun a h => by rw [hout]; simp [h]
  refine ⟨fun rk h => ?_, ⟨t0, by rw [hout]; simp⟩, fun n r h => ⟨n1, i1, ?_⟩, fun s hs he => ?_⟩
  · have h : rk ∈ st2.out := h
    rw [hout] at h
    rcases List.mem_append.1 h with h | h
    · rw [List.mem_singleton] at h
      subst h
      exact a3
    · rcases List.mem_append.1 h with h | h
      · exact b4 rk h
      · exact c2 rk h
  · have := b5 n r h
    rw [Nat.zero_add] at this
    exact this
  · obtain ⟨d1, d2⟩ := c3 s hs he
    exact ⟨fun h h' => (d1 h h').imp fun t h => ⟨i2 _ h.1, h.2⟩, fun s' h h' => (d2 s' h h').imp fun t h => ⟨i2 _ h.1, h.2⟩⟩

end DSlash
end Verif
