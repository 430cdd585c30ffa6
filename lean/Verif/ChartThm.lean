/-
Property C25: chart indexes.
-/
import Verif.Chart
import Verif.RuleEqThm

set_option linter.unusedSectionVars false
set_option linter.unusedSimpArgs false

namespace Verif
open Tm

namespace Chart
variable {K : Type}

/-! ### Specification -/

/-- the value last stored for an item -/
def lastSet : List (Op K) → Tm → Option K
  | [], _ => none
  | .query _ :: ops, x => lastSet ops x
  | .set y v :: ops, x => match lastSet ops x with
    | some w => some w
    | none => if y = x then some v else none

/-- items are ground terms with a functor -/
def Item (x : Tm) : Prop := Ground x ∧ ∃ f as, x = .app (f :: as)

def OkOps (ops : List (Op K)) : Prop := ∀ op ∈ ops, ∀ x v, op = .set x v → Item x

/-! ### Lemmas -/

theorem get_addTo (ix : Ix) (k : List Tm) (x : Tm) (k' : List Tm) :
    (Dict.get (addTo ix k x) k').getD [] =
      if k = k' then (if x ∈ (Dict.get ix k).getD [] then (Dict.get ix k).getD [] else (Dict.get ix k).getD [] ++ [x])
      else (Dict.get ix k').getD [] := by
  simp only [addTo, Dict.get_set]
  split <;> simp

/-- the index for mode `m` of functor `f`, arity `a` lists exactly the items in `keys` -/
def IxOk (keys : List Tm) (f : Tm) (a : Nat) (m : List Nat) (ix : Ix) : Prop :=
  ∀ k, ((Dict.get ix k).getD []).Nodup ∧
    ∀ x, x ∈ (Dict.get ix k).getD [] ↔ x ∈ keys ∧ ∃ as, x = .app (f :: as) ∧ as.length = a ∧ keyAt as m = k

theorem parts_eq {x f : Tm} {as : List Tm} : x.parts = some (f, as) ↔ x = .app (f :: as) := by
  cases x with
  | var n => simp [Tm.parts]
  | con c => simp [Tm.parts]
  | app l => cases l with
    | nil => simp [Tm.parts]
    | cons a l => simp [Tm.parts]

theorem IxOk.add {keys : List Tm} {f : Tm} {a : Nat} {m ix} (h : IxOk keys f a m ix) {as : List Tm} (hl : as.length = a) :
    IxOk (keys ++ [.app (f :: as)]) f a m (addTo ix (keyAt as m) (.app (f :: as))) := by
  intro k
  rw [get_addTo]
  obtain ⟨h1, h2⟩ := h k
  by_cases hk : keyAt as m = k
  · subst hk
    rw [if_pos rfl]
    split
    · rename_i hin
      refine ⟨h1, fun x => ⟨fun hx => ⟨by simp [((h2 x).1 hx).1], ((h2 x).1 hx).2⟩, ?_⟩⟩
      rintro ⟨hx, hx'⟩
      rw [List.mem_append, List.mem_singleton] at hx
      rcases hx with hx | rfl
      · exact (h2 x).2 ⟨hx, hx'⟩
      · exact hin
    · rename_i hin
      refine ⟨?_, fun x => ?_⟩
      · rw [List.nodup_append]
        refine ⟨h1, by simp, ?_⟩
        intro a ha b hb
        rw [List.mem_singleton] at hb
        subst hb; rintro rfl; exact hin ha
      · rw [List.mem_append, List.mem_singleton, List.mem_append, List.mem_singleton, h2 x]
        constructor
        · rintro (⟨a1, a2⟩ | rfl)
          · exact ⟨.inl a1, a2⟩
          · exact ⟨.inr rfl, as, rfl, hl, rfl⟩
        · rintro ⟨a1 | rfl, a2⟩
          · exact .inl ⟨a1, a2⟩
          · exact .inr rfl
  · rw [if_neg hk]
    refine ⟨h1, fun x => ?_⟩
    rw [h2 x, List.mem_append, List.mem_singleton]
    constructor
    · rintro ⟨a1, a2⟩; exact ⟨.inl a1, a2⟩
    · rintro ⟨a1 | rfl, as', e1, e2, e3⟩
      · exact ⟨a1, as', e1, e2, e3⟩
      · cases e1; exact absurd e3 hk

theorem IxOk.skip {keys : List Tm} {f : Tm} {a : Nat} {m ix} (h : IxOk keys f a m ix) {x : Tm}
    (hx : ¬ ∃ as, x = .app (f :: as) ∧ as.length = a) : IxOk (keys ++ [x]) f a m ix := by
  intro k
  obtain ⟨h1, h2⟩ := h k
  refine ⟨h1, fun y => ?_⟩
  rw [h2 y, List.mem_append, List.mem_singleton]
  constructor
  · rintro ⟨a1, a2⟩; exact ⟨.inl a1, a2⟩
  · rintro ⟨a1 | rfl, as', e1, e2, e3⟩
    · exact ⟨a1, as', e1, e2, e3⟩
    · exact absurd ⟨as', e1, e2⟩ hx

theorem build_ok (f : Tm) (a : Nat) (m : List Nat) : ∀ (l pre : List Tm) (ix : Ix), IxOk pre f a m ix →
    IxOk (pre ++ l) f a m (l.foldl (buildStep f a m) ix) := by
  intro l
  induction l with
  | nil => intro pre ix h; simpa using h
  | cons x l ih =>
    intro pre ix h
    have e : pre ++ x :: l = (pre ++ [x]) ++ l := by simp
    rw [e, List.foldl_cons]
    refine ih _ _ ?_
    unfold buildStep
    cases hp : x.parts with
    | none => exact h.skip fun ⟨as, e, _⟩ => by rw [parts_eq.2 e] at hp; cases hp
    | some q =>
      obtain ⟨f', as⟩ := q
      have hx := parts_eq.1 hp
      subst hx
      simp only
      split
      · rename_i hc
        obtain ⟨rfl, hl⟩ := hc
        exact h.add hl
      · rename_i hc
        refine h.skip ?_
        rintro ⟨as', e, hl⟩
        cases e
        exact hc ⟨rfl, hl⟩

theorem buildIndex_ok (chart : Dict Tm K) (f : Tm) (a : Nat) (m : List Nat) :
    IxOk chart.keys f a m (buildIndex chart f a m) := by
  have := build_ok f a m chart.keys [] [] (fun k => ⟨by simp, fun x => by simp⟩)
  simpa [buildIndex] using this

/-- state invariant -/
structure Inv (c : Chart K) : Prop where
  wf : c.chart.WF
  item : ∀ x ∈ c.chart.keys, Item x
  ix : ∀ f a avail m ix, Dict.get c.index (f, a) = some avail → Dict.get avail m = some ix → IxOk c.chart.keys f a m ix

theorem inv_empty : Inv (empty : Chart K) := ⟨Dict.WF.nil, by simp [empty], by simp [empty]⟩

theorem get_map_val {α β γ : Type} [DecidableEq α] (g : α → β → γ) (d : Dict α β) (k : α) :
    Dict.get (d.map fun p => (p.1, g p.1 p.2)) k = (Dict.get d k).map (g k) := by
  induction d with
  | nil => rfl
  | cons p d ih =>
    obtain ⟨a, b⟩ := p
    simp only [List.map_cons, Dict.get_cons, ih]
    split
    · rename_i h; subst h; rfl
    · rfl

theorem Inv.setitem {c : Chart K} (hc : Inv c) {x : Tm} (hx : Item x) (v : K) : Inv (c.setitem x v) := by
  refine ⟨hc.wf.set x v, ?_, ?_⟩
  · intro y hy
    simp only [Chart.setitem, Dict.keys_set] at hy
    split at hy
    · exact hc.item y hy
    · rw [List.mem_append, List.mem_singleton] at hy
      rcases hy with hy | rfl
      · exact hc.item y hy
      · exact hx
  · intro f a avail m ix e1 e2
    simp only [Chart.setitem, updateIndex] at e1 ⊢
    rw [Dict.keys_set]
    split at e1
    · rename_i hin
      rw [if_pos hin]
      exact hc.ix f a avail m ix e1 e2
    · rename_i hin
      rw [if_neg hin]
      obtain ⟨_, g, as, rfl⟩ := hx
      have hp : (Tm.app (g :: as)).parts = some (g, as) := rfl
      simp only [hp] at e1
      cases hg : Dict.get c.index (g, as.length) with
      | none =>
        simp only [hg] at e1
        refine (hc.ix f a avail m ix e1 e2).skip ?_
        rintro ⟨as', e, hl⟩
        cases e
        rw [hl, e1] at hg; cases hg
      | some av =>
        simp only [hg, Dict.get_set] at e1
        split at e1
        · rename_i h1
          cases h1
          cases e1
          rw [get_map_val (fun m ix => addTo ix (keyAt as m) (.app (f :: as)))] at e2
          cases hm : Dict.get av m with
          | none => rw [hm] at e2; cases e2
          | some ix0 =>
            rw [hm] at e2
            cases e2
            exact (hc.ix _ _ _ _ _ hg hm).add rfl
        · rename_i h1
          refine (hc.ix f a avail m ix e1 e2).skip ?_
          rintro ⟨as', e, hl⟩
          cases e
          exact h1 (by rw [hl])

theorem cands_ok {c : Chart K} (hc : Inv c) {q f : Tm} {as : List Tm} (hq : q = .app (f :: as)) :
    ∃ c' xs, c.cands q = some (c', xs) ∧ Inv c' ∧ c'.chart = c.chart ∧ xs.Nodup ∧
      ∀ x, x ∈ xs ↔ x ∈ c.chart.keys ∧ ∃ bs, x = .app (f :: bs) ∧ bs.length = as.length ∧ keyAt bs (qmode as) = keyAt as (qmode as) := by
  subst hq
  have hp : (Tm.app (f :: as)).parts = some (f, as) := rfl
  refine ⟨_, _, rfl, ?_, rfl, ?_⟩
  · refine ⟨hc.wf, hc.item, ?_⟩
    intro f' a' avail m ix e1 e2
    simp only [Dict.get_set] at e1
    split at e1
    · rename_i h1
      cases h1
      cases e1
      rw [Dict.get_set] at e2
      split at e2
      · rename_i h2
        cases e2
        subst h2
        cases hg : Dict.get c.index (f, as.length) with
        | none => simp only [Option.getD_none, Dict.get_nil]; exact buildIndex_ok _ _ _ _
        | some av =>
          simp only [Option.getD_some]
          cases hm : Dict.get av (qmode as) with
          | none => exact buildIndex_ok _ _ _ _
          | some ix => exact hc.ix _ _ _ _ _ hg hm
      · cases hg : Dict.get c.index (f, as.length) with
        | none => rw [hg] at e2; simp at e2
        | some av => rw [hg] at e2; exact hc.ix _ _ _ _ _ hg e2
    · exact hc.ix _ _ _ _ _ e1 e2
  · have hok : IxOk c.chart.keys f as.length (qmode as)
        ((Dict.get ((Dict.get c.index (f, as.length)).getD []) (qmode as)).getD (buildIndex c.chart f as.length (qmode as))) := by
      cases hg : Dict.get c.index (f, as.length) with
      | none => simp only [Option.getD_none, Dict.get_nil]; exact buildIndex_ok _ _ _ _
      | some av =>
        simp only [Option.getD_some]
        cases hm : Dict.get av (qmode as) with
        | none => exact buildIndex_ok _ _ _ _
        | some ix => exact hc.ix _ _ _ _ _ hg hm
    exact ⟨(hok _).1, fun x => (hok _).2 x⟩

theorem inv_step {c : Chart K} (hc : Inv c) {op : Op K} (ho : ∀ x v, op = .set x v → Item x) : Inv (c.step op) := by
  cases op with
  | set x v => exact hc.setitem (ho x v rfl) v
  | query q =>
    simp only [step]
    cases hp : q.parts with
    | none => simp only [cands, hp]; exact hc
    | some p =>
      obtain ⟨f, as⟩ := p
      obtain ⟨c', xs, e, h1, _⟩ := cands_ok hc (parts_eq.1 hp)
      rw [e]; exact h1

theorem inv_run : ∀ (ops : List (Op K)) {c : Chart K}, Inv c → OkOps ops → Inv (ops.foldl step c) := by
  intro ops
  induction ops with
  | nil => intro c h _; exact h
  | cons op ops ih =>
    intro c h ho
    exact ih (inv_step h fun x v e => ho op (by simp) x v e) fun o ho' => ho o (by simp [ho'])

theorem chart_run : ∀ (ops : List (Op K)) (c : Chart K) (x : Tm), Dict.get (ops.foldl step c).chart x =
    match lastSet ops x with
    | some v => some v
    | none => Dict.get c.chart x := by
  intro ops
  induction ops with
  | nil => intro c x; rfl
  | cons op ops ih =>
    intro c x
    rw [List.foldl_cons, ih]
    cases op with
    | set y v =>
      simp only [lastSet]
      cases hl : lastSet ops x with
      | some w => rfl
      | none =>
        simp only [step, Chart.setitem, Dict.get_set]
        split <;> rfl
    | query q =>
      simp only [lastSet]
      cases hl : lastSet ops x with
      | some w => rfl
      | none =>
        simp only [step, cands]
        cases q.parts with
        | none => rfl
        | some p => rfl

theorem getD_lt {as : List Tm} {i : Nat} (hi : i < as.length) : as.getD i default = as[i] := by
  rw [List.getD_eq_getElem?_getD, List.getElem?_eq_getElem hi]; rfl

theorem ground_getD {as : List Tm} (h : Ground (.app as)) (i : Nat) (hi : i < as.length) : Ground (as.getD i default) := by
  unfold Ground at *
  rw [getD_lt hi]
  rw [vars_app] at h
  ext y
  constructor
  · intro hy
    have : y ∈ varsL as := mem_varsL.2 ⟨as[i], List.getElem_mem hi, hy⟩
    rw [h] at this; exact this
  · simp

theorem sub_ground {t : Tm} (h : Ground t) (σ : Nat → Tm) : sub σ t = t := by
  conv_rhs => rw [← sub_id t]
  exact sub_congr fun x hx => by unfold Ground at h; rw [h] at hx; simp at hx

/-- an instance of `q` agrees with `q` at the ground positions -/
theorem key_instance {f : Tm} {as bs : List Tm} {σ : Nat → Tm} (h : sub σ (.app (f :: as)) = .app (f :: bs)) :
    bs.length = as.length ∧ keyAt bs (qmode as) = keyAt as (qmode as) := by
  simp only [sub_app, List.map_cons, Tm.app.injEq, List.cons.injEq] at h
  have hb := h.2
  subst hb
  refine ⟨by simp, ?_⟩
  unfold keyAt
  apply List.map_congr_left
  intro i hi
  simp only [qmode, List.mem_filter, List.mem_range, decide_eq_true_eq] at hi
  obtain ⟨hi, this⟩ := hi
  rw [getD_lt hi] at this
  rw [getD_lt (by simpa using hi), getD_lt hi, List.getElem_map]
  exact sub_ground this σ

theorem unifies_ground {fuel : Nat} {x q : Tm} {b : Bool} (hx : Ground x) (e : Heap.unifiesF fuel x q (fun _ => none) = some b) :
    b = true ↔ InstanceOf x q := by
  rw [Heap.C02_unifies Heap.acyclic_empty e]
  constructor
  · rintro ⟨τ, _, h⟩
    rw [sub_ground hx] at h
    exact ⟨τ, h.symm⟩
  · rintro ⟨σ, h⟩
    refine ⟨σ, by intro n t h; simp at h, ?_⟩
    rw [sub_ground hx, h]

/-! ### Property C25 -/

/-- After any history of insertions, updates and queries, querying with a term whose functor is not a
variable yields exactly the stored items that are instances of the query, each once, with the value
last stored. -/
theorem C25_exact {ops : List (Op K)} (ho : OkOps ops) {ord : List Tm → List Tm} (hord : ∀ l, (ord l).Perm l) {fuel : Nat}
    {f : Const} {as : List Tm} {c' : Chart K} {l : List (Tm × K)}
    (e : getitem ord fuel (ops.foldl step empty) (.app (.con f :: as)) = some (c', l)) :
    (l.map (·.1)).Nodup ∧ ∀ x v, (x, v) ∈ l ↔ lastSet ops x = some v ∧ InstanceOf x (.app (.con f :: as)) := by
  have hinv := inv_run ops inv_empty ho
  have hch := chart_run ops empty
  generalize ops.foldl step empty = c at e hinv hch
  obtain ⟨c1, xs, e1, _, _, hnd, hmem⟩ := cands_ok hinv (q := .app (.con f :: as)) rfl
  simp only [getitem, e1] at e
  split at e
  · cases e
  · rename_i l' hl
    simp only [Option.some.injEq, Prod.mk.injEq] at e
    obtain ⟨_, rfl⟩ := e
    have hg : ∀ x, Dict.get c.chart x = lastSet ops x := fun x => by
      rw [hch x]; cases lastSet ops x <;> rfl
    -- the collected list in terms of the candidates
    have key : ∀ (ys : List Tm), (∀ y ∈ ys, y ∈ c.chart.keys) → ∀ r, collect (probe fuel c.chart (.app (.con f :: as))) ys = some r →
        (∀ x v, (x, v) ∈ r ↔ x ∈ ys ∧ lastSet ops x = some v ∧ InstanceOf x (.app (.con f :: as))) ∧
        (r.map (·.1)).Sublist ys := by
      intro ys
      induction ys with
      | nil => intro _ r hr; cases hr; simp
      | cons y ys ih =>
        intro hk r hr
        simp only [collect, probe] at hr
        cases hu : Heap.unifiesF fuel y (.app (.con f :: as)) (fun _ => none) with
        | none => simp [hu] at hr
        | some b =>
          have hy := unifies_ground (hinv.item y (hk y (by simp))).1 hu
          simp only [hu] at hr
          cases b with
          | false =>
            simp only at hr
            split at hr
            · cases hr
            · rename_i r1 hr1
              cases hr
              obtain ⟨i1, i2⟩ := ih (fun z hz => hk z (by simp [hz])) _ hr1
              refine ⟨fun x v => ?_, by simpa using i2.cons y⟩
              simp only [List.nil_append, i1, List.mem_cons]
              constructor
              · rintro ⟨a1, a2⟩; exact ⟨.inr a1, a2⟩
              · rintro ⟨rfl | a1, a2, a3⟩
                · exact absurd (hy.2 a3) (by simp)
                · exact ⟨a1, a2, a3⟩
          | true =>
            simp only at hr
            obtain ⟨w, hw⟩ := (Dict.mem_keys_iff_get _ _).1 (hk y (by simp))
            simp only [hw] at hr
            split at hr
            · cases hr
            · rename_i r1 hr1
              cases hr
              obtain ⟨i1, i2⟩ := ih (fun z hz => hk z (by simp [hz])) _ hr1
              refine ⟨fun x v => ?_, by simpa using i2.cons_cons y⟩
              simp only [List.singleton_append, List.mem_cons, i1, Prod.mk.injEq]
              constructor
              · rintro (⟨rfl, rfl⟩ | ⟨a1, a2⟩)
                · exact ⟨.inl rfl, by rw [← hg]; exact hw, hy.1 rfl⟩
                · exact ⟨.inr a1, a2⟩
              · rintro ⟨rfl | a1, a2, a3⟩
                · left
                  rw [← hg, hw] at a2
                  cases a2; exact ⟨rfl, rfl⟩
                · exact .inr ⟨a1, a2, a3⟩
    obtain ⟨k1, k2⟩ := key _ (fun y hy => ((hmem y).1 ((hord xs).mem_iff.1 hy)).1) _ hl
    refine ⟨k2.nodup ((hord xs).nodup_iff.2 hnd), fun x v => ?_⟩
    rw [k1]
    constructor
    · rintro ⟨_, h⟩; exact h
    · rintro ⟨h1, h2⟩
      refine ⟨?_, h1, h2⟩
      rw [(hord xs).mem_iff, hmem]
      have hk : x ∈ c.chart.keys := (Dict.mem_keys_iff_get _ _).2 ⟨v, by rw [hg]; exact h1⟩
      obtain ⟨_, g, bs, rfl⟩ := hinv.item x hk
      obtain ⟨σ, hσ⟩ := h2
      have hgf : g = .con f := by
        simp only [sub_app, List.map_cons, sub_con, Tm.app.injEq, List.cons.injEq] at hσ
        exact hσ.1.symm
      subst hgf
      exact ⟨hk, bs, rfl, (key_instance hσ).1, (key_instance hσ).2⟩

/-- Queries always succeed (no `KeyError`, no endless loop), and do not change the stored values. -/
theorem C25_total {ops : List (Op K)} (ho : OkOps ops) {ord : List Tm → List Tm} (hord : ∀ l, (ord l).Perm l)
    (f : Const) (as : List Tm) : ∃ N, ∀ fuel ≥ N, ∃ c' l,
      getitem ord fuel (ops.foldl step empty) (.app (.con f :: as)) = some (c', l) ∧
      c' = (ops ++ [Op.query (.app (.con f :: as))]).foldl step empty := by
  have hinv := inv_run ops inv_empty ho
  rw [List.foldl_append]
  generalize ops.foldl step empty = c at hinv
  obtain ⟨c1, xs, e1, _, _, hnd, hmem⟩ := cands_ok hinv (q := .app (.con f :: as)) rfl
  have : ∀ ys : List Tm, (∀ y ∈ ys, y ∈ c.chart.keys) → ∃ N, ∀ fuel ≥ N, ∃ l, collect (probe fuel c.chart (.app (.con f :: as))) ys = some l := by
    intro ys
    induction ys with
    | nil => intro _; exact ⟨0, fun _ _ => ⟨[], rfl⟩⟩
    | cons y ys ih =>
      intro hk
      obtain ⟨N1, h1⟩ := ih fun z hz => hk z (by simp [hz])
      obtain ⟨N2, h2⟩ := Heap.C04_terminates Heap.acyclic_empty y (.app (.con f :: as))
      refine ⟨max N1 N2, fun fuel hf => ?_⟩
      obtain ⟨l, hl⟩ := h1 fuel (by omega)
      have h3 := h2 fuel (by omega) Bool (fun h _ => some (h, true, .done)) false (fun _ _ _ => by simp)
      obtain ⟨w, hw⟩ := (Dict.mem_keys_iff_get _ _).1 (hk y (by simp))
      simp only [collect, hl, probe]
      have : ∃ b, Heap.unifiesF fuel y (.app (.con f :: as)) (fun _ => none) = some b := by
        unfold Heap.unifiesF
        cases hh : Heap.unifyF (S := Bool) fuel y (.app (.con f :: as)) (fun h _ => some (h, true, .done)) (fun _ => none) false with
        | none => exact absurd hh h3
        | some r => exact ⟨_, rfl⟩
      obtain ⟨b, hb⟩ := this
      cases b with
      | false => simp only [hb]; exact ⟨_, rfl⟩
      | true => simp only [hb, hw]; exact ⟨_, rfl⟩
  obtain ⟨N, hN⟩ := this (ord xs) (fun y hy => ((hmem y).1 ((hord xs).mem_iff.1 hy)).1)
  refine ⟨N, fun fuel hf => ?_⟩
  obtain ⟨l, hl⟩ := hN fuel hf
  refine ⟨c1, l, ?_, ?_⟩
  · simp only [getitem, e1, hl]
  · simp only [List.foldl_cons, List.foldl_nil, step, e1]

section
private def a : Tm := .con (.str "a")
private def b : Tm := .con (.str "b")
private def e2 (x y : Tm) : Tm := .app [.con (.str "e"), x, y]
private def ops : List (Op Nat) :=
  [.set (e2 a b) 1, .query (e2 a (.var 0)), .set (e2 a a) 2, .query (e2 (.var 0) (.var 1)), .set (e2 b a) 5, .set (e2 a b) 7]
/-- an index built early sees later insertions and values -/
example : (getitem id 30 (ops.foldl step empty) (e2 a (.var 0))).map (·.2) = some [(e2 a b, 7), (e2 a a, 2)] := by decide +kernel
example : OkOps ops := by
  intro op hop x v e
  subst e
  simp [ops] at hop
  rcases hop with ⟨rfl, _⟩ | ⟨rfl, _⟩ | ⟨rfl, _⟩ | ⟨rfl, _⟩ <;> exact ⟨by unfold Ground; decide +kernel, _, _, rfl⟩

/-- A query whose functor is a variable finds nothing through the index, although stored items match. -/
theorem C25_variable_functor :
    (getitem id 30 ([Op.set (e2 a b) 1].foldl step (empty : Chart Nat)) (.app [.var 0, a, b])).map (·.2) = some [] ∧
    InstanceOf (e2 a b) (.app [.var 0, a, b]) :=
  ⟨by decide +kernel, fun n => if n = 0 then .con (.str "e") else .var n, by decide +kernel⟩
end

end Chart
end Verif
