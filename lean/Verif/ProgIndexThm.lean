/-
Properties C18 (functor index) and C20 (generated names).
-/
import Verif.ProgIndex
import Verif.RuleEqThm
import Std.Data.String.ToNat

set_option linter.unusedSectionVars false
set_option linter.unusedSimpArgs false

namespace Verif
open Tm

namespace ProgIndex

/-- rule numbers with head functor `c`, ascending -/
def withFn (rules : List Rule) (c : Const) : List Nat :=
  (List.range rules.length).filter fun i => (rules[i]?.bind fun r => hfn r.head) = some c

theorem withFn_snoc (rules : List Rule) (r : Rule) (c : Const) :
    withFn (rules ++ [r]) c = withFn rules c ++ if hfn r.head = some c then [rules.length] else [] := by
  simp only [withFn, List.length_append, List.length_singleton, List.range_succ, List.filter_append]
  congr 1
  · refine List.filter_congr fun i hi => ?_
    rw [List.getElem?_append_left (List.mem_range.1 hi)]
  · by_cases h : hfn r.head = some c <;> simp [h]

/-- every rule has a functor in its head -/
def NoWild (rules : List Rule) : Prop := ∀ r ∈ rules, hfn r.head ≠ none

def Inv (p : Prog) : Prop := ∀ d, p.cache = some d → ∀ c, (d.get c).getD [] = withFn p.rules c

theorem push_get (d : Dict Const (List Nat)) (c c' : Const) (i : Nat) :
    ((push d c i).get c').getD [] = (d.get c').getD [] ++ if c = c' then [i] else [] := by
  rw [push, Dict.get_set]
  split
  · rename_i h; subst h; simp
  · simp

theorem hfn_some {t : Tm} {c : Const} (h : hfn t = some c) : ∃ as, t = .app (.con c :: as) := by
  unfold hfn at h
  split at h
  · cases h; exact ⟨_, rfl⟩
  · cases h

theorem build_spec {ss : List Const} : ∀ (rs pre : List Rule) (d : Dict Const (List Nat)) (f : Const), NoWild rs →
    (∀ c, (d.get c).getD [] = withFn pre c) →
    ∃ d', build ss rs pre.length d f = some (d', f) ∧ ∀ c, (d'.get c).getD [] = withFn (pre ++ rs) c := by
  intro rs
  induction rs with
  | nil => intro pre d f _ h; exact ⟨d, rfl, by simpa using h⟩
  | cons r rs ih =>
    intro pre d f hw h
    obtain ⟨c, hc⟩ := Option.ne_none_iff_exists'.1 (hw r (by simp))
    obtain ⟨as, has⟩ := hfn_some hc
    obtain ⟨d', h1, h2⟩ := ih (pre ++ [r]) (push d c pre.length) f (fun r hr => hw r (by simp [hr])) (fun c' => by
      rw [push_get, h, withFn_snoc, hc]; simp)
    refine ⟨d', ?_, by simpa using h2⟩
    rw [build, has]
    simpa using h1

theorem f2r_spec {ord : List Const → List Const} {p : Prog} (hi : Inv p) (hw : NoWild p.rules) (f : Const) :
    ∃ p', f2r ord p f = some (p', withFn p.rules f) ∧ p'.rules = p.rules ∧ Inv p' := by
  unfold f2r
  cases hc : p.cache with
  | some d => exact ⟨p, by simp [hi d hc], rfl, hi⟩
  | none =>
    obtain ⟨d, h1, h2⟩ := build_spec (ss := ord (syms p.rules)) p.rules [] [] f hw (by simp [withFn])
    simp only [List.length_nil] at h1
    simp only [h1]
    refine ⟨{ p with cache := some d }, by rw [h2 f]; rfl, rfl, ?_⟩
    intro d' hd c
    cases hd
    exact h2 c

theorem add_spec {p : Prog} (hi : Inv p) {r : Rule} (hr : hfn r.head ≠ none) :
    ∃ p', addRule p r = some p' ∧ p'.rules = p.rules ++ [r] ∧ Inv p' := by
  obtain ⟨c, hc⟩ := Option.ne_none_iff_exists'.1 hr
  obtain ⟨as, has⟩ := hfn_some hc
  unfold addRule
  cases hd : p.cache with
  | none => exact ⟨_, rfl, rfl, fun d h => by simp at h⟩
  | some d =>
    simp only [has]
    refine ⟨_, rfl, rfl, fun d' h c' => ?_⟩
    simp only [Option.some.injEq] at h
    subst h
    simp only
    rw [push_get, hi d hd, withFn_snoc, hc]
    simp

/-- the operations keep to rules with a functor in the head -/
def OpOK : Op → Prop
  | .add r => hfn r.head ≠ none
  | _ => True

theorem withFn_set {rules : List Rule} {i : Nat} {s : Rule} (hs : rules[i]? = some s) (b : List Tm) (c : Const) :
    withFn (rules.set i ⟨s.head, b⟩) c = withFn rules c := by
  simp only [withFn, List.length_set]
  refine List.filter_congr fun j _ => ?_
  rw [List.getElem?_set]
  by_cases h : i = j
  · subst h
    obtain ⟨this, h2⟩ := List.getElem?_eq_some_iff.1 hs
    simp [this, h2]
  · simp [h]

theorem step_spec {ord : List Const → List Const} {p p' : Prog} (hi : Inv p) (hw : NoWild p.rules) {op : Op} (ho : OpOK op)
    (e : step ord p op = some p') : Inv p' ∧ NoWild p'.rules := by
  cases op with
  | add r =>
    obtain ⟨q, h1, h2, h3⟩ := add_spec hi (r := r) ho
    simp only [step, h1, Option.some.injEq] at e
    subst e
    refine ⟨h3, fun r' hr' => ?_⟩
    rw [h2, List.mem_append, List.mem_singleton] at hr'
    rcases hr' with hr' | rfl
    · exact hw r' hr'
    · exact ho
  | pop i =>
    simp only [step, pop] at e
    split at e
    · cases e
      exact ⟨fun d h => by simp at h, fun r hr => hw r (List.mem_of_mem_eraseIdx hr)⟩
    · cases e
  | setBody i b =>
    simp only [step, setBody] at e
    split at e
    · cases e
    · rename_i s hs
      cases e
      refine ⟨fun d hd c => ?_, fun r hr => ?_⟩
      · simp only [withFn_set hs]; exact hi d hd c
      · rcases List.mem_or_eq_of_mem_set hr with hr | rfl
        · exact hw r hr
        · exact hw s (List.mem_of_getElem? hs)
  | query f =>
    obtain ⟨q, h1, h2, h3⟩ := f2r_spec (ord := ord) hi hw f
    simp only [step, h1, Option.map_some, Option.some.injEq] at e
    subst e
    exact ⟨h3, h2 ▸ hw⟩

theorem run_spec {ord : List Const → List Const} : ∀ (ops : List Op) (p p' : Prog), Inv p → NoWild p.rules →
    (∀ op ∈ ops, OpOK op) → run ord p ops = some p' → Inv p' ∧ NoWild p'.rules := by
  intro ops
  induction ops with
  | nil => intro p p' hi hw _ e; cases e; exact ⟨hi, hw⟩
  | cons op ops ih =>
    intro p p' hi hw ho e
    simp only [run] at e
    split at e
    · cases e
    · rename_i q hq
      obtain ⟨h1, h2⟩ := step_spec hi hw (ho op (by simp)) hq
      exact ih q p' h1 h2 (fun o h => ho o (by simp [h])) e

/-! ### Property C18 -/

/-- After any history of appends, removals, in-place replacements and queries on a program whose rules
all have a functor in the head, the rules consulted for functor `c` are exactly the rules with that head
functor, in program order, once each; the look-up itself does not fail or change the rules. -/
theorem C18_exact {ord : List Const → List Const} {rules : List Rule} (hw : NoWild rules) {ops : List Op}
    (ho : ∀ op ∈ ops, OpOK op) {p : Prog} (e : run ord ⟨rules, none⟩ ops = some p) (c : Const) :
    ∃ p' ix, f2r ord p c = some (p', ix) ∧ p'.rules = p.rules ∧ ix.Pairwise (· < ·) ∧
      ∀ i, i ∈ ix ↔ ∃ r as, p.rules[i]? = some r ∧ r.head = .app (.con c :: as) := by
  obtain ⟨h1, h2⟩ := run_spec ops _ p (fun d h => by simp at h) hw ho e
  obtain ⟨p', h3, h4, _⟩ := f2r_spec (ord := ord) h1 h2 c
  refine ⟨p', _, h3, h4, (List.pairwise_lt_range).filter _, fun i => ?_⟩
  simp only [withFn, List.mem_filter, List.mem_range, decide_eq_true_eq]
  constructor
  · rintro ⟨_, h⟩
    rw [Option.bind_eq_some_iff] at h
    obtain ⟨r, hr, hc⟩ := h
    obtain ⟨as, has⟩ := hfn_some hc
    exact ⟨r, as, hr, has⟩
  · rintro ⟨r, as, hr, has⟩
    exact ⟨(List.getElem?_eq_some_iff.1 hr).1, by simp [hr, has, hfn]⟩

/-- Hence no rule whose head could unify with the query (functor and arguments) is missed. -/
theorem C18_complete {ord : List Const → List Const} {rules : List Rule} (hw : NoWild rules) {ops : List Op}
    (ho : ∀ op ∈ ops, OpOK op) {p : Prog} (e : run ord ⟨rules, none⟩ ops = some p) {c : Const} {args : List Tm}
    {p' ix} (hq : f2r ord p c = some (p', ix)) {i : Nat} {r : Rule} (hr : p.rules[i]? = some r)
    (hu : ∃ σ, r.head.sub σ = (Tm.app (.con c :: args)).sub σ) : i ∈ ix := by
  obtain ⟨p1, ix1, h1, _, _, h2⟩ := C18_exact hw ho e c
  rw [hq] at h1
  simp only [Option.some.injEq, Prod.mk.injEq] at h1
  rw [h1.2]
  have hw' := (run_spec ops _ p (fun d h => by simp at h) hw ho e).2
  obtain ⟨c', hc'⟩ := Option.ne_none_iff_exists'.1 (hw' r (List.mem_of_getElem? hr))
  obtain ⟨as, has⟩ := hfn_some hc'
  obtain ⟨σ, hσ⟩ := hu
  rw [has] at hσ
  simp only [sub_app, List.map_cons, sub_con, Tm.app.injEq, List.cons.injEq, Tm.con.injEq] at hσ
  exact (h2 i).2 ⟨r, as, hr, by rw [has, hσ.1]⟩

/-- No history of appends and queries fails. -/
theorem C18_no_error {ord : List Const → List Const} : ∀ (ops : List Op) {p : Prog}, Inv p → NoWild p.rules →
    (∀ op ∈ ops, OpOK op ∧ ∀ i, op ≠ .pop i ∧ ∀ b, op ≠ .setBody i b) → run ord p ops ≠ none := by
  intro ops
  induction ops with
  | nil => intro p _ _ _; simp [run]
  | cons op ops ih =>
    intro p hi hw ho
    have : ∃ p', step ord p op = some p' := by
      have h1 := ho op (by simp)
      cases op with
      | add r => obtain ⟨q, h, _⟩ := add_spec hi (r := r) h1.1; exact ⟨q, h⟩
      | pop i => exact absurd rfl (h1.2 i).1
      | setBody i b => exact absurd rfl ((h1.2 i).2 b)
      | query f => obtain ⟨q, h, _⟩ := f2r_spec (ord := ord) hi hw f; exact ⟨q, by simp [step, h]⟩
    obtain ⟨p', hp⟩ := this
    obtain ⟨h1, h2⟩ := step_spec hi hw (ho op (by simp)).1 hp
    simp only [run, hp]
    exact ih h1 h2 fun o h => ho o (by simp [h])

section
private def ca (s : String) : Const := .str s
private def rl (s : String) : Rule := ⟨.app [.con (.str s)], []⟩
private def wild : Rule := ⟨.var 0, []⟩

/-- a history mixing appends, a query that builds the index, a removal and another append -/
example : (run id ⟨[rl "a", rl "b", rl "a"], none⟩ [.query (ca "b"), .add (rl "a"), .pop 0, .query (ca "a"), .add (rl "c")]).bind
    (fun p => (f2r id p (ca "a")).map (·.2)) = some [1, 2] := by decide +kernel
example : NoWild [rl "a", rl "b", rl "a"] := by intro r hr; simp at hr; rcases hr with rfl | rfl | rfl <;> simp [rl, hfn]

/-- With a variable-headed rule, the query that builds the index answers for another functor: the loop
variable of `for f in syms` replaces the argument.  Here the query for `a` returns rule 2 (`b`) and
misses rule 1 (`a`). -/
theorem C18_shadowed :
    (f2r id ⟨[wild, rl "a", rl "b"], none⟩ (ca "a")).map (·.2) = some [0, 2] := by decide +kernel

/-- A functor that occurs nowhere in the program misses the variable-headed rule, which would match. -/
theorem C18_unseen_functor :
    ((f2r id ⟨[wild, rl "a"], none⟩ (ca "a")).bind fun p => (f2r id p.1 (ca "z")).map (·.2)) = some [] ∧
    ∃ σ, wild.head.sub σ = (Tm.app [.con (ca "z")]).sub σ := by
  refine ⟨by decide +kernel, fun _ => .app [.con (ca "z")], by simp [wild]⟩

/-- A functor first added after the index was built misses the variable-headed rule. -/
theorem C18_late_functor :
    ((run id ⟨[wild, rl "a"], none⟩ [.query (ca "a"), .add (rl "z")]).bind fun p => (f2r id p (ca "z")).map (·.2)) = some [2] := by
  decide +kernel

/-- Adding a variable-headed rule after the index was built raises. -/
theorem C18_wild_append : run id ⟨[rl "a"], none⟩ [.query (ca "a"), .add wild] = none := by decide +kernel
end

end ProgIndex

/-! ### Property C20 -/
namespace GenFunctor

theorem splitDigits {p q : List Char} {m n : Nat} (hp : ∀ c ∈ p.getLast?, c.isDigit = false)
    (hq : ∀ c ∈ q.getLast?, c.isDigit = false)
    (h : p ++ Nat.toDigits 10 m = q ++ Nat.toDigits 10 n) : p = q ∧ Nat.toDigits 10 m = Nat.toDigits 10 n := by
  have key : ∀ {p q a b : List Char}, (∀ c ∈ q.getLast?, c.isDigit = false) → (∀ c ∈ a, c.isDigit = true) →
      p ++ a = q ++ b → p.length ≤ q.length → p = q ∧ a = b := by
    intro p q a b hq ha h hl
    obtain ⟨t, ht⟩ : ∃ t, q = p ++ t := by
      have := List.prefix_of_prefix_length_le (List.prefix_append p a) (h ▸ List.prefix_append q b) hl
      obtain ⟨t, ht⟩ := this; exact ⟨t, ht.symm⟩
    subst ht
    rw [List.append_assoc, List.append_cancel_left_eq] at h
    rcases List.eq_nil_or_concat t with rfl | ⟨t', c, rfl⟩
    · simpa using h
    · exfalso
      have h1 := hq c (by simp)
      have h2 := ha c (by rw [h]; simp)
      rw [h1] at h2; cases h2
  have hd : ∀ n, ∀ c ∈ Nat.toDigits 10 n, c.isDigit = true := fun n c hc =>
    Nat.isDigit_of_mem_toDigits (by decide) (by decide) hc
  rcases Nat.le_total p.length q.length with hl | hl
  · exact key hq (hd m) h hl
  · obtain ⟨h1, h2⟩ := key hp (hd n) h.symm hl
    exact ⟨h1.symm, h2.symm⟩

theorem gen_inj {p q : String} {m n : Nat} (hp : ∀ c ∈ p.toList.getLast?, c.isDigit = false)
    (hq : ∀ c ∈ q.toList.getLast?, c.isDigit = false) (h : p ++ m.repr = q ++ n.repr) : m = n := by
  have := congrArg String.toList h
  rw [String.toList_append, String.toList_append, Nat.toList_repr, Nat.toList_repr] at this
  have := (splitDigits hp hq this).2
  apply Nat.repr_injective
  rw [← String.toList_inj, Nat.toList_repr, Nat.toList_repr, this]

/-- the prefix of a call does not end in a digit -/
def PrefixOK (pre : String) : Prop := ∀ c ∈ pre.toList.getLast?, c.isDigit = false

theorem genRun_cons (i : Nat) (syms : List String) (pre : String) (cs) : genRun i ((syms, pre) :: cs) =
    if pre ++ (i + 1).repr ∈ syms then [] else (pre ++ (i + 1).repr) :: genRun (i + 1) cs := by
  rw [genRun, genMethod, genGlobal]
  by_cases h : pre ++ (i + 1).repr ∈ syms
  · rw [if_pos h, if_pos h]
  · rw [if_neg h, if_neg h]

theorem genRun_spec : ∀ (cs : List (List String × String)) (i : Nat), (∀ c ∈ cs, PrefixOK c.2) →
    (∀ f ∈ genRun i cs, ∃ j > i, ∃ pre, PrefixOK pre ∧ f = pre ++ j.repr) ∧ (genRun i cs).Nodup := by
  intro cs
  induction cs with
  | nil => intro i _; simp [genRun]
  | cons c cs ih =>
    intro i h
    obtain ⟨syms, pre⟩ := c
    rw [genRun_cons]
    split
    · simp
    · · obtain ⟨h1, h2⟩ := ih (i + 1) fun c hc => h c (by simp [hc])
        have hpre : PrefixOK pre := h (syms, pre) (by simp)
        refine ⟨fun f hf => ?_, List.nodup_cons.2 ⟨fun hm => ?_, h2⟩⟩
        · rcases List.mem_cons.1 hf with rfl | hf
          · exact ⟨i + 1, by omega, pre, hpre, rfl⟩
          · obtain ⟨j, hj, p, hp, e⟩ := h1 f hf
            exact ⟨j, by omega, p, hp, e⟩
        · obtain ⟨j, hj, p, hp, e⟩ := h1 _ hm
          have := gen_inj hpre hp e
          omega

/-- Names produced by any history of calls of `gen_functor` (on any programs, with any prefixes that do
not end in a digit) are pairwise different. -/
theorem C20_distinct (i : Nat) (cs : List (List String × String)) (h : ∀ c ∈ cs, PrefixOK c.2) :
    (genRun i cs).Nodup := (genRun_spec cs i h).2

/-- Whatever `p.gen_functor(prefix)` returns does not occur in the program. -/
theorem C20_new : ∀ (cs : List (List String × String)) (i k : Nat) (f : String), (genRun i cs)[k]? = some f →
    ∃ syms pre, cs[k]? = some (syms, pre) ∧ f ∉ syms ∧ f = pre ++ (i + k + 1).repr := by
  intro cs
  induction cs with
  | nil => intro i k f h; simp [genRun] at h
  | cons c cs ih =>
    intro i k f h
    obtain ⟨syms, pre⟩ := c
    rw [genRun_cons] at h
    split at h
    · simp at h
    · · rename_i hn
        cases k with
        | zero =>
          simp only [List.getElem?_cons_zero, Option.some.injEq] at h
          subst h
          exact ⟨syms, pre, rfl, hn, by simp⟩
        | succ k =>
          simp only [List.getElem?_cons_succ] at h
          obtain ⟨s, p, h1, h2, h3⟩ := ih (i + 1) k f h
          exact ⟨s, p, by simpa using h1, h2, by rw [h3]; congr 2; omega⟩

/-- If no program ever contains a name of the form prefix + number, no call fails. -/
theorem C20_total : ∀ (cs : List (List String × String)) (i : Nat),
    (∀ c ∈ cs, ∀ j > i, c.2 ++ j.repr ∉ c.1) → (genRun i cs).length = cs.length := by
  intro cs
  induction cs with
  | nil => intro i _; rfl
  | cons c cs ih =>
    intro i h
    obtain ⟨syms, pre⟩ := c
    have := h (syms, pre) (by simp) (i + 1) (by omega)
    rw [genRun_cons, if_neg this, List.length_cons, List.length_cons]
    rw [ih (i + 1) fun c hc j hj => h c (by simp [hc]) j (by omega)]

theorem genLocalGo_spec {syms : List String} {pre : String} : ∀ fuel c f g, genLocalGo syms pre fuel c f = some g → g ∉ syms := by
  intro fuel
  induction fuel with
  | zero => intro c f g e; cases e
  | succ n ih =>
    intro c f g e
    simp only [genLocalGo] at e
    split at e
    · exact ih _ _ _ e
    · rename_i h; cases e; exact h

/-- `_gen_functor` returns a name that does not occur in the program ... -/
theorem C20_local {syms : List String} {pre : String} {fuel : Nat} {f : String} (e : genLocal syms pre fuel = some f) : f ∉ syms :=
  genLocalGo_spec _ _ _ _ e

theorem append_repr_inj {pre : String} {m n : Nat} (h : pre ++ m.repr = pre ++ n.repr) : m = n := by
  apply Nat.repr_injective
  have := congrArg String.toList h
  rw [String.toList_append, String.toList_append, List.append_cancel_left_eq] at this
  exact String.toList_inj.1 this

theorem genLocalGo_total {syms : List String} {pre : String} : ∀ (rest : List String) (c : Nat) (f : String) fuel,
    rest.length + 1 < fuel → (∀ j > c, pre ++ j.repr ∈ syms → pre ++ j.repr ∈ rest) → genLocalGo syms pre fuel c f ≠ none := by
  intro rest
  induction hn : rest.length generalizing rest with
  | zero =>
    intro c f fuel hf h
    have hr : rest = [] := List.length_eq_zero_iff.1 hn
    obtain ⟨n, rfl⟩ : ∃ n, fuel = n + 2 := ⟨fuel - 2, by omega⟩
    simp only [genLocalGo]
    split
    · have : pre ++ (c + 1).repr ∉ syms := fun hm => by
        have := h (c + 1) (by omega) hm; simp [hr] at this
      simp [this]
    · simp
  | succ k ih =>
    intro c f fuel hf h
    obtain ⟨n, rfl⟩ : ∃ n, fuel = n + 1 := ⟨fuel - 1, by omega⟩
    rw [genLocalGo]
    split
    · by_cases hm : pre ++ (c + 1).repr ∈ syms
      · have hr := h (c + 1) (by omega) hm
        have hl : (rest.erase (pre ++ (c + 1).repr)).length = k := by
          rw [List.length_erase_of_mem hr]; omega
        refine ih (rest.erase (pre ++ (c + 1).repr)) hl (c + 1) _ n (by omega) fun j hj hjs => ?_
        refine (List.mem_erase_of_ne fun e => ?_).2 (h j (by omega) hjs)
        have := append_repr_inj e; omega
      · obtain ⟨m, rfl⟩ : ∃ m, n = m + 1 := ⟨n - 1, by omega⟩
        simp [genLocalGo, hm]
    · simp

/-- ... and always finds one. -/
theorem C20_local_terminates (syms : List String) (pre : String) : ∃ N, ∀ f ≥ N, genLocal syms pre f ≠ none :=
  ⟨syms.length + 2, fun f hf => genLocalGo_total syms 1 pre f (by omega) fun _ _ h => h⟩

/-- Prefixes that end in a digit break uniqueness: `gen_functor('g1')` as call 2 and `gen_functor('g')`
as call 12 both give `g12`. -/
theorem C20_digit_prefix : (genGlobal 1 "g1").2 = (genGlobal 11 "g").2 := by decide +kernel

example : genRun 0 [(["f"], "$gen"), (["f", "$gen1"], "$magic"), ([], "$gen")] = ["$gen1", "$magic2", "$gen3"] := by decide +kernel
example : ∀ c ∈ [((["f"] : List String), "$gen"), (["f", "$gen1"], "$magic"), ([], "$gen")], PrefixOK c.2 := by
  intro c hc; simp at hc; rcases hc with rfl | rfl | rfl <;> intro c hc <;> simp at hc <;> subst hc <;> decide
example : genLocal ["f", "f2"] "f" 5 = some "f3" := by decide +kernel

end GenFunctor
end Verif
