/-
What the left-corner transformation (`Slash.lean` with the flag `lct`) produces, rule by rule, in terms of ground instances of rules.
-/
import Verif.DSlashRun

set_option linter.unusedSectionVars false
set_option linter.unusedSimpArgs false

namespace Verif
open Tm Heap Sem
open Solver (noHeap good_noHeap)

namespace DLct
open Slash (Kind Res St Inst Exo ExoH Useful UsefulN slashT otherT nmT sitem oitem fresh_inst old_disjoint)
open Linearize (Sigs isBuiltin)
open Unfold (subLit subRule derefR)
open DSlash
open Classical
variable {W : Type}

/-- what a rule of the new program is, by its kind -/
def SrcL (c : Slash.Cfg) (rules : List (WRule W)) (pos : Nat → Option Nat) (nodes : List Tm) (rk : WRule W × Kind) : Prop :=
  match rk.2 with
  | .base => ∃ a, Same rk.1 ⟨slashT c.sl a a, []⟩
  | .o n => ∃ r, rules[n]? = some r ∧ pos n = none ∧ Same rk.1 ⟨wrap c r.head, r.body⟩
  | .ss n => ∃ r j q Y, rules[n]? = some r ∧ pos n = some j ∧ r.body[j]? = some (.sub q) ∧ Y ∉ rvars r ∧
      Same rk.1 ⟨slashT c.sl (.var Y) q, r.body.take j ++ r.body.drop (j + 1) ++ [.sub (slashT c.sl (.var Y) r.head)]⟩
  | .oo n => ∃ r j q, rules[n]? = some r ∧ pos n = some j ∧ r.body[j]? = some (.sub q) ∧ (¬ ∃ z, Inst c.X z ∧ Inst q z) ∧
      Same rk.1 ⟨wrap c r.head, r.body.take j ++ .sub (if Exo c q then q else otherT c.ot q) :: r.body.drop (j + 1)⟩
  | .ro => ∃ s ∈ nodes, ∀ x b, GI rk.1 x b ↔ Inst s x ∧
      b = .sub (otherT c.ot x.1) :: (if ∃ z, Inst c.X z ∧ Inst s z then [.sub (nmT c.lam x.1)] else [])
  | .rso => ∃ s ∈ nodes, ∃ s' ∈ nodes, ∀ x b, GI rk.1 x b ↔ ∃ z : GTm, Inst s x ∧ Inst s' z ∧ Inst c.X z ∧
      b = [.sub (if ExoH c s' then z.1 else otherT c.ot z.1), .sub (slashT c.sl x.1 z.1)]

/-- the rules made from the nodes -/
theorem srcL_of {c : Slash.Cfg} {rules : List (WRule W)} {pos : Nat → Option Nat} {nodes : List Tm} {rk : WRule W × Kind} (h : Src c ([] : List (WRule W)) pos nodes rk) :
    SrcL c rules pos nodes rk := by
  unfold Src at h
  unfold SrcL
  cases hk : rk.2 with
  | base => rw [hk] at h; exact ⟨_, h⟩
  | o n => rw [hk] at h; obtain ⟨r, h, _⟩ := h; simp at h
  | ss n => rw [hk] at h; obtain ⟨r, _, _, h, _⟩ := h; simp at h
  | oo n => rw [hk] at h; obtain ⟨r, _, _, h, _⟩ := h; simp at h
  | ro => rw [hk] at h; exact h
  | rso => rw [hk] at h; exact h

section
variable [CSemi W] {rules : List (WRule W)} {pos : Nat → Option Nat} {nodes : List Tm}

theorem ruleStep_made {c : Slash.Cfg} (hl : c.lct = true) (hfv : Function.Injective c.fv) {Y : Nat} {st st' : St W} {r : WRule W} {i : Nat}
    (hi : rules[i]? = some r) (ok : Slash.RuleOK c Y pos r i) (e : Slash.ruleStep c Y pos st r i = some st') :
    ∃ new, st'.out = st.out ++ new ∧ (∀ rk ∈ new, SrcL c rules pos nodes rk) ∧ Has c pos r i new := by
  have hdI : ∀ u, vars u ⊆ rvars r → ∀ t ∈ c.inputs, Disjoint (vars t) (vars u) := fun u hu t ht => by
    rw [Finset.disjoint_left]; intro n h1 h2; exact ok.inputs t ht n (hu h2) h1
  have hhead : vars r.head ⊆ rvars r := by intro n hn; simp [rvars, hn]
  unfold Slash.ruleStep at e
  cases hp : pos i with
  | none =>
    simp only [hp] at e
    have key : st' = st.add c.fv ⟨wrap c r.head, r.body⟩ (.o i) := by
      unfold wrap
      cases h1 : Slash.usefulOther c noHeap r.head with
      | none => simp [h1] at e
      | some b =>
        have c1 := Slash.useful_spec h1
        cases b with
        | true =>
          simp only [h1, Option.map_eq_some_iff] at e
          obtain ⟨o, h2, rfl⟩ := e
          have := Slash.other_spec (hdI _ hhead) h2
          rw [if_neg ok.notExo] at this
          rw [this]
        | false =>
          simp only [h1, Option.some.injEq] at e
          rw [if_neg fun h => by simpa using c1.2 h, e]
    obtain ⟨t, a1, _, a3⟩ := add_same hfv st ⟨wrap c r.head, r.body⟩ (.o i)
    refine ⟨[(t, .o i)], by rw [key, a1], by simpa [SrcL] using ⟨r, hi, hp, a3⟩, fun _ => ⟨t, by simp⟩, fun j e => ?_⟩
    rw [hp] at e; simp at e
  | some j =>
    simp only [hp] at e
    cases hbj : r.body[j]? with
    | none => simp [hbj] at e
    | some l =>
      cases l with
      | val w => simp [hbj] at e
      | sub q =>
        simp only [hbj] at e
        have hslot : Slash.slotOf pos r i = some (r.body.take j, q, r.body.drop (j + 1)) := by simp [Slash.slotOf, hp, hbj]
        have hq : vars q ⊆ rvars r := by
          intro n hn
          exact litVars_sub_rvars (List.mem_of_getElem? hbj) (by simpa [litVars] using hn)
        have hXq : Disjoint (vars c.X) (vars q) := by
          rw [Finset.disjoint_left]; intro n h1 h2; exact ok.X n (hq h2) h1
        have hbq : isBuiltin c.sig q = false := by
          cases h : isBuiltin c.sig q with
          | false => rfl
          | true => simp [h] at e
        simp only [hbq, Bool.false_eq_true, if_false] at e
        have hss : ∀ (L : List (Lit W)) q R, Slash.ssRule c Y r.head L q R = ⟨slashT c.sl (.var Y) q, L ++ R ++ [.sub (slashT c.sl (.var Y) r.head)]⟩ := fun L q R => by
          simp [Slash.ssRule, hl]
        rw [hss] at e
        obtain ⟨t, a1, _, a3⟩ := add_same hfv st ⟨slashT c.sl (.var Y) q, r.body.take j ++ r.body.drop (j + 1) ++ [.sub (slashT c.sl (.var Y) r.head)]⟩ (.ss i)
        have hsrc : SrcL c rules pos nodes (t, .ss i) := ⟨r, j, q, Y, hi, hp, hbj, ok.Y, a3⟩
        cases hu : unifiesF c.f c.X q noHeap with
        | none => simp [hu] at e
        | some b =>
          have cu : b = true ↔ ∃ z, Inst c.X z ∧ Inst q z := by
            rw [Slash.unifies_iff hu]
            exact ⟨fun ⟨θ, h⟩ => Slash.meet_of_unify h, fun ⟨z, h1, h2⟩ => Slash.unify_of_meet hXq h1 h2⟩
          cases b with
          | true =>
            simp only [hu] at e
            split at e
            · simp only [Option.some.injEq] at e
              refine ⟨[(t, .ss i)], by rw [← e, a1], by simpa using hsrc, fun e => ?_, fun j' e' => ?_⟩
              · rw [hp] at e; simp at e
              · rw [hp, Option.some.injEq] at e'; subst e'
                exact ⟨q, hbj, ⟨t, by simp⟩, fun h => absurd (cu.1 rfl) h⟩
            · simp at e
          | false =>
            simp only [hu] at e
            have hm : ¬ ∃ z, Inst c.X z ∧ Inst q z := fun h => by simpa using cu.2 h
            cases h3 : Slash.other c noHeap r.head with
            | none => simp [h3] at e
            | some h =>
              cases h4 : Slash.other c noHeap q with
              | none => simp [h3, h4] at e
              | some o =>
                simp only [h3, h4, Option.some.injEq] at e
                have e3 := Slash.other_spec (hdI _ hhead) h3
                rw [if_neg ok.notExo] at e3
                have hqu : Useful c q := ⟨q, ok.used _ _ _ hslot, Tm.var, rfl⟩
                have e4 := Slash.other_spec (hdI _ hq) h4
                rw [if_pos hqu] at e4
                obtain ⟨t', b1, _, b3⟩ := add_same hfv (st.add c.fv ⟨slashT c.sl (.var Y) q, r.body.take j ++ r.body.drop (j + 1) ++ [.sub (slashT c.sl (.var Y) r.head)]⟩ (.ss i))
                  ⟨h, r.body.take j ++ .sub o :: r.body.drop (j + 1)⟩ (.oo i)
                refine ⟨[(t, .ss i), (t', .oo i)], by rw [← e, b1, a1]; simp, ?_, fun e => ?_, fun j' e' => ?_⟩
                · intro rk hrk
                  simp only [List.mem_cons, List.not_mem_nil, or_false] at hrk
                  rcases hrk with rfl | rfl
                  · exact hsrc
                  · refine ⟨r, j, q, hi, hp, hbj, hm, ?_⟩
                    rw [e3, e4] at b3
                    exact b3
                · rw [hp] at e; simp at e
                · rw [hp, Option.some.injEq] at e'; subst e'
                  exact ⟨q, hbj, ⟨t, by simp⟩, fun _ => ⟨t', by simp⟩⟩

theorem ruleLoop_made {c : Slash.Cfg} (hl : c.lct = true) (hfv : Function.Injective c.fv) {Y : Nat} :
    ∀ {rs : List (WRule W)} {i : Nat} {st st' : St W}, (∀ n, rules[i + n]? = rs[n]?) → (∀ (n : Nat) r, rs[n]? = some r → Slash.RuleOK c Y pos r (i + n)) →
    Slash.ruleLoop c Y pos rs i st = some st' →
    ∃ new, st'.out = st.out ++ new ∧ (∀ rk ∈ new, SrcL c rules pos nodes rk) ∧ ∀ (n : Nat) r, rs[n]? = some r → Has c pos r (i + n) new
  | [], i, st, st', _, _, e => by
    simp only [Slash.ruleLoop, Option.some.injEq] at e
    subst e
    exact ⟨[], by simp, by simp, by simp⟩
  | r :: rs, i, st, st', hi, ok, e => by
    rw [Slash.ruleLoop] at e
    cases h1 : Slash.ruleStep c Y pos st r i with
    | none => simp [h1] at e
    | some st1 =>
      simp only [h1] at e
      obtain ⟨n1, a1, a2, a3⟩ := ruleStep_made (nodes := nodes) hl hfv (by simpa using hi 0) (by simpa using ok 0 r rfl) h1
      obtain ⟨n2, b1, b2, b3⟩ := ruleLoop_made hl hfv (fun n => by simpa [Nat.add_assoc, Nat.add_comm 1] using hi (n + 1))
        (fun n r h => by simpa [Nat.add_assoc, Nat.add_comm 1] using ok (n + 1) r (by simpa using h)) e
      refine ⟨n1 ++ n2, by rw [b1, a1, List.append_assoc], fun rk h => ?_, fun n r' h => ?_⟩
      · rcases List.mem_append.1 h with h | h
        · exact a2 rk h
        · exact b2 rk h
      · cases n with
        | zero =>
          simp only [List.getElem?_cons_zero, Option.some.injEq] at h
          subst h
          exact a3.mono fun a h => List.mem_append.2 (.inl h)
        | succ n =>
          have := (b3 n r' (by simpa using h)).mono (out' := n1 ++ n2) fun a h => List.mem_append.2 (.inr h)
          simpa [Nat.add_assoc, Nat.add_comm 1] using this

end

/-- what the transformation has produced -/
structure MadeL (rules : List (WRule W)) (pos : Nat → Option Nat) (res : Res W) : Prop where
  src : ∀ rk ∈ res.rules, SrcL res.c rules pos res.nodes rk
  base : ∃ t, res.rules[0]? = some (t, Kind.base) ∧ ∀ y, GI t (sitem res.c.sl y y) []
  has : ∀ (n : Nat) r, rules[n]? = some r → ∃ out : List (WRule W × Kind), (∀ a ∈ out, a ∈ res.rules) ∧ (pos n = none → ∃ t, (t, Kind.o n) ∈ out) ∧
    ∀ j, pos n = some j → ∃ q, r.body[j]? = some (.sub q) ∧ (∃ t, (t, Kind.ss n) ∈ out) ∧ ((¬ ∃ z, Inst res.c.X z ∧ Inst q z) → ∃ t, (t, Kind.oo n) ∈ out)
  node : ∀ s ∈ res.nodes, ¬ Exo res.c s →
    (UsefulN res.c s → (¬ ∃ z, Inst res.c.X z ∧ Inst s z) → ∃ t, (t, Kind.ro) ∈ res.rules ∧ ∀ x, Inst s x → GI t x [.sub (otherT res.c.ot x.1)]) ∧
    ∀ s' ∈ res.nodes, (∃ z, Inst res.c.X z ∧ Inst s' z) → ∃ t, (t, Kind.rso) ∈ res.rules ∧ ∀ x b, GI t x b ↔ ∃ z : GTm, Inst s x ∧ Inst s' z ∧ Inst res.c.X z ∧
      b = [.sub (if ExoH res.c s' then z.1 else otherT res.c.ot z.1), .sub (slashT res.c.sl x.1 z.1)]

open Slash (Setup strs usefulList) in
theorem madeL [CSemi W] {f : Nat} {sig : Sigs} {fv cv : Nat → Nat} {lam : Const} {rules : List (WRule W)} {inputs : List Tm}
    {pos : Nat → Option Nat} {x : Tm} {k : Nat} {res : Res W} (S : Setup sig fv cv rules inputs pos k)
    (e : Slash.slash true f sig fv cv lam rules inputs pos x k = some res) : MadeL rules pos res := by
  unfold Slash.slash at e
  cases h1 : GenFunctor.genLocal (strs rules) "/" f with
  | none => simp [h1] at e
  | some sl =>
  cases h2 : GenFunctor.genLocal (strs rules) "$other" f with
  | none => simp [h1, h2] at e
  | some ot =>
  simp only [h1, h2] at e
  set X := freshV fv k x with hX
  cases h3 : addAll (DisjointEst.add fv cv f) ⟨[], X.2⟩ (Prune.terms sig rules inputs) with
  | none => simp [h3] at e
  | some N =>
  simp only [h3] at e
  set c : Slash.Cfg := ⟨true, sig, inputs, fv, cv, f, lam, .str sl, .str ot, X.1, X.1 :: usefulList pos rules 0⟩ with hc
  simp only [if_true] at e
  set base : St W := (⟨[], N.k + 1⟩ : St W).add fv ⟨slashT c.sl (.var (fv N.k)) (.var (fv N.k)), []⟩ .base with hbase
  cases h4 : Slash.ruleLoop c (fv N.k) pos rules 0 base with
  | none => simp [h4] at e
  | some st1 =>
  simp only [h4] at e
  cases h5 : Slash.nodeLoop c N.xs N.xs st1 with
  | none => simp [h5] at e
  | some st2 =>
  simp only [h5, Option.some.injEq] at e
  subst e
  have hXk : k ≤ X.2 := (freshV_spec S.ifv k x).2.1
  have hNk : X.2 ≤ N.k := Slash.addAll_k S.ifv h3
  have nsl := Slash.name_new h1
  have not := Slash.name_new h2
  obtain ⟨a, ha⟩ := Slash.genLocal_prefix h1
  obtain ⟨b, hb⟩ := Slash.genLocal_prefix h2
  have hne : c.sl ≠ c.ot := by
    show Const.str sl ≠ .str ot
    rw [ha, hb]
    intro h
    exact Slash.slash_ne_other (Const.str.inj h)
  have hnamed : ∀ t ∈ Prune.terms sig rules inputs, Named t := fun t ht => by
    rcases Slash.mem_terms ht with h | ⟨r, hr, rfl | ⟨h, _⟩⟩
    · exact S.named t h
    · exact (S.plain.named r hr).head
    · exact (S.plain.named r hr).body t h
  have hinv := DisjointEst.addAll_inv S.ifv S.icv S.sep _ _ _ [] S.terms ⟨by simp, by simp, by simp⟩ h3
  have hsig : ∀ s ∈ N.xs, Slash.SigIn (Prune.terms sig rules inputs) s := Slash.addAll_sig S.ifv S.icv (fun t ht => ⟨ht, hnamed t ht⟩) (by simp) h3
  have hold : ∀ {t : Tm}, (∀ n ∈ vars t, ∀ j ≥ k, n ≠ fv j) → Disjoint (vars t) (vars X.1) := fun {t} h => old_disjoint S.ifv h x
  have hexo : ∀ r ∈ rules, ¬ Exo c r.head := by
    rintro r hr (h | ⟨i, hi, y, h1, h2⟩)
    · rw [S.plain.heads r hr] at h; simp at h
    · apply S.heads r hr i hi
      rw [← Slash.inst_sig (S.plain.named r hr).head h2, Slash.inst_sig (S.named i hi) h1]
  obtain ⟨t0, a1, a2, a3⟩ := add_same S.ifv (⟨[], N.k + 1⟩ : St W) ⟨slashT c.sl (.var (fv N.k)) (.var (fv N.k)), []⟩ .base
  rw [← hbase] at a1 a2
  have a2' : N.k + 1 ≤ base.k := a2
  have hok : ∀ r ∈ rules, NamedRule r ∧ hfn r.head ≠ some c.sl ∧ hfn r.head ≠ some c.ot ∧ ¬ Exo c r.head ∧
      (∀ t ∈ c.inputs, ∀ n ∈ rvars r, n ∉ vars t) ∧ (∀ n ∈ rvars r, n ∉ vars c.X) ∧ fv N.k ∉ rvars r :=
    fun r hr => ⟨S.plain.named r hr, (nsl r hr).1, (not r hr).1, hexo r hr,
    fun t ht n hn => S.apart r hr t ht n hn, fun n hn h => by
      have : n ∈ vars X.1 := h
      obtain ⟨i, hi, _, rfl⟩ := (freshV_spec S.ifv k x).2.2 n this
      exact S.oldR r hr _ hn i hi rfl, fun h => S.oldR r hr _ h N.k (by omega) rfl⟩
  obtain ⟨_, _, b2, b3, _⟩ := Slash.ruleLoop_spec (c := c) S.ifv hne hok (fun q hq => List.mem_cons_of_mem _ hq) h4
  have hget : ∀ (n : Nat) r, rules[n]? = some r → (r, Slash.slotOf pos r n) ∈ Slash.slots pos rules 0 := by
    have : ∀ (rs : List (WRule W)) (i n : Nat) r, rs[n]? = some r → (r, Slash.slotOf pos r (i + n)) ∈ Slash.slots pos rs i := by
      intro rs
      induction rs with
      | nil => intro i n r h; simp at h
      | cons a rs ih =>
        intro i n r h
        rw [Slash.slots]
        cases n with
        | zero => simp only [List.getElem?_cons_zero, Option.some.injEq] at h; subst h; simp
        | succ n =>
          have := ih (i + 1) n r (by simpa using h)
          rw [Nat.add_assoc, Nat.add_comm 1] at this
          exact List.mem_cons_of_mem _ this
    intro n r h
    have := this rules 0 n r h
    simpa using this
  obtain ⟨n1, b1, b4, b5⟩ := ruleLoop_made (rules := rules) (nodes := N.xs) (c := c) rfl S.ifv (i := 0) (fun n => by simp) (fun n r h => by
      obtain ⟨o1, o2, o3, o4, o5, o6, o7⟩ := hok r (List.mem_of_getElem? h)
      refine ⟨o1, o2, o3, o4, o5, o6, o7, fun L q R h' => ?_⟩
      refine List.mem_cons_of_mem _ (Slash.slots_useful.2 ⟨_, hget n r h, L, R, ?_⟩)
      simpa using h') h4
  have hslot : ∀ q ∈ usefulList pos rules 0, ∃ r ∈ rules, Lit.sub q ∈ r.body := fun q hq => by
    obtain ⟨r, hr, L, R, h⟩ := Slash.slots_useful.1 hq
    exact ⟨r.1, Slash.mem_slots hr, by rw [(b3 r hr L q R h).1]; simp⟩
  have E : Slash.Env c st1.k := ⟨S.ifv, fun i hi n hn j hj => (S.oldI i hi n hn).1 j (by omega), fun i hi => hold fun n hn => (S.oldI i hi n hn).1,
    by simp [hc], fun u hu => by
      have hu : u = X.1 ∨ u ∈ usefulList pos rules 0 := by simpa [hc] using hu
      rcases hu with rfl | hu
      · exact (Slash.old_fresh S.ifv k x).mono (show X.2 ≤ _ by omega)
      · obtain ⟨r, hr, hq⟩ := hslot u hu
        intro n hn j hj
        exact S.oldR r hr n (litVars_sub_rvars hq (by simpa [litVars] using hn)) j (by omega)⟩
  obtain ⟨n2, c1, c2, c3⟩ := nodeLoop_made (rules := ([] : List (WRule W))) (pos := pos) E (fun s hs => (hsig s hs).named) (fun s hs i hi => by
    rw [Finset.disjoint_left]
    intro n hn hn'
    obtain ⟨j, e⟩ := hinv.canon s hs n hn'
    exact (S.oldI i hi n hn).2 j e) (fun s hs => hs) (le_refl _) h5
  have hout : st2.out = [(t0, .base)] ++ (n1 ++ n2) := by rw [c1, b1, a1]; simp
  have i1 : ∀ a ∈ n1, a ∈ st2.out := fun a h => by rw [hout]; simp [h]
  have i2 : ∀ a ∈ n2, a ∈ st2.out := fun a h => by rw [hout]; simp [h]
  refine ⟨fun rk h => ?_, ⟨t0, by show st2.out[0]? = _; rw [hout]; rfl, fun y => (a3 _ _).2 ⟨fun _ => y, by simp [sitem, gsub, slashT], rfl⟩⟩, fun n r h => ⟨n1, i1, ?_⟩, fun s hs he => ?_⟩
  · have h : rk ∈ st2.out := h
    rw [hout] at h
    rcases List.mem_append.1 h with h | h
    · rw [List.mem_singleton] at h
      subst h
      exact ⟨_, a3⟩
    · rcases List.mem_append.1 h with h | h
      · exact b4 rk h
      · exact srcL_of (c2 rk h)
  · have := b5 n r h
    rw [Nat.zero_add] at this
    exact this
  · obtain ⟨d1, d2⟩ := c3 s hs he
    exact ⟨fun h h' => (d1 h h').imp fun t h => ⟨i2 _ h.1, h.2⟩, fun s' h h' => (d2 s' h h').imp fun t h => ⟨i2 _ h.1, h.2⟩⟩
end DLct
end Verif
