/-
Properties C15-C17: body covering, rule equality, program equality.
-/
import Verif.RuleEq
import Verif.TermOpsThm
import Verif.TermSetsThm

set_option linter.unusedSectionVars false
set_option linter.unusedSimpArgs false

namespace Verif
open Tm

theorem forall₂_mem_right {α β : Type} {R : α → β → Prop} {l l'} (h : List.Forall₂ R l l') {b} (hb : b ∈ l') :
    ∃ a ∈ l, R a b := by
  induction h with
  | nil => simp at hb
  | cons h0 _ ih =>
    rcases List.mem_cons.1 hb with rfl | hb
    · exact ⟨_, by simp, h0⟩
    · obtain ⟨a, ha, h⟩ := ih hb; exact ⟨a, by simp [ha], h⟩

theorem forall₂_mem_left {α β : Type} {R : α → β → Prop} {l l'} (h : List.Forall₂ R l l') {a} (ha : a ∈ l) :
    ∃ b ∈ l', R a b := forall₂_mem_right h.flip ha

theorem collect_spec {α β : Type} {g : α → Option (List β)} : ∀ {l : List α} {r : List β}, collect g l = some r →
    ∃ rs : List (List β), List.Forall₂ (fun a x => g a = some x) l rs ∧ r = rs.flatten := by
  intro l
  induction l with
  | nil => intro r e; simp only [collect, Option.some.injEq] at e; exact ⟨[], .nil, by simp [← e]⟩
  | cons a l ih =>
    intro r e
    simp only [collect] at e
    split at e
    · cases e
    · rename_i x hx
      split at e
      · cases e
      · rename_i y hy
        obtain ⟨rs, h1, h2⟩ := ih hy
        simp only [Option.some.injEq] at e
        exact ⟨x :: rs, .cons hx h1, by simp [← e, h2]⟩

theorem collect_evt {α β : Type} {g : Nat → α → Option (List β)} : ∀ {l : List α},
    (∀ a ∈ l, Evt fun f => g f a ≠ none) → Evt fun f => collect (g f) l ≠ none := by
  intro l
  induction l with
  | nil => intro _; exact Evt.of_all fun f => by simp [collect]
  | cons a l ih =>
    intro h
    refine ((h a (by simp)).and (ih fun b hb => h b (by simp [hb]))).mono fun f e => ?_
    obtain ⟨x, hx⟩ := Option.ne_none_iff_exists'.1 e.1
    obtain ⟨y, hy⟩ := Option.ne_none_iff_exists'.1 e.2
    simp [collect, hx, hy]

namespace Subst

/-- with separated variables, whatever `cover` returns meets its specification -/
theorem cover_spec' {L : Set Nat} {x : Tm} (hx : ∀ n ∈ vars x, n ∈ L) {s y} (hs : Sep L s)
    (hy : ∀ n ∈ vars y, n ∉ L) {f r} (e : coverF f s x y = some r) : CovSpec L s x y r := by
  obtain ⟨r', h1, N, hN⟩ := cover_total x hx s y hs hy
  have := coverF_mono_le (le_max_left f N) e
  rw [hN _ (le_max_right f N)] at this
  rw [Option.some.injEq] at this
  exact this ▸ h1

mutual
theorem coverF_dom {f : Nat} : ∀ (x : Tm) {s : Heap} {y s'}, coverF f s x y = some (some s') →
    ∀ n, s' n ≠ none → s n ≠ none ∨ n ∈ vars x := by
  intro x s y s' e n hn
  match x with
  | .var m =>
    simp only [coverF] at e
    split at e
    · cases e; exact .inl hn
    · split at e
      · split at e
        · cases e; exact .inl hn
        · cases e
      · split at e
        · cases e
        · cases e
        · cases e
          by_cases h : n = m
          · right; simp [h]
          · left; simpa [Heap.upd, h] using hn
  | .con c =>
    simp only [coverF] at e
    split at e <;> cases e
    exact .inl hn
  | .app as =>
    rw [coverF.eq_def] at e
    simp only at e
    split at e
    · cases e; exact .inl hn
    · split at e
      · split at e
        · have := coverLF_dom as e n hn
          simpa using this
        · cases e
      · cases e
theorem coverLF_dom {f : Nat} : ∀ (xs : List Tm) {s : Heap} {ys s'}, coverLF f s xs ys = some (some s') →
    ∀ n, s' n ≠ none → s n ≠ none ∨ n ∈ varsL xs := by
  intro xs s ys s' e n hn
  match xs, ys with
  | [], _ => simp only [coverLF] at e; cases e; exact .inl hn
  | _ :: _, [] => simp only [coverLF] at e; cases e; exact .inl hn
  | a :: as, b :: bs =>
    simp only [coverLF] at e
    split at e
    · cases e
    · cases e
    · rename_i s1 h1
      rcases coverLF_dom as e n hn with h | h
      · rcases coverF_dom a h1 n h with h | h
        · exact .inl h
        · right; simp [h]
      · right; simp [h]
end

end Subst

namespace Product
open Subst

/-! ### Specification: alignments -/

/-- under `τ`, subgoal number `i` of `xs` becomes subgoal number `al[i]` of `ys` -/
def Maps (ys : List Tm) (τ : Nat → Tm) (xs : List Tm) (al : List Nat) : Prop :=
  List.Forall₂ (fun x j => ys[j]? = some (x.sub τ)) xs al

/-- `al` uses every index of `js` at most once and no other, and some substitution that agrees with `s`
maps `xs` onto the chosen subgoals -/
def Valid (ys : List Tm) (s : Heap) (js : List Nat) (xs : List Tm) (al : List Nat) : Prop :=
  al.Nodup ∧ (∀ j ∈ al, j ∈ js) ∧ ∃ τ, Ext s τ ∧ Maps ys τ xs al

/-- the alignment recorded in a result: entry `i` is the subgoal of `ys` matched by `xs[i]` -/
def Res.al (r : Res) : List Nat := (r.A.map Prod.fst).reverse

/-- the dict that records alignment `al` starting at `i` -/
def alDict (al : List Nat) (i : Nat) : List (Nat × Nat) := (al.zipIdx i).reverse

structure ResOK (L : Set Nat) (ys : List Tm) (s : Heap) (i : Nat) (js : List Nat) (xs : List Tm) (r : Res) : Prop where
  dict : r.A = alDict r.al i
  rest : r.R = js.filter (· ∉ r.al)
  sep : Sep L r.S
  bound : ∀ n ∈ varsL xs, r.S n ≠ none
  old : ∀ n, s n ≠ none → r.S n ≠ none
  dom : ∀ n, r.S n ≠ none → s n ≠ none ∨ n ∈ varsL xs
  ext : ∀ τ, Ext r.S τ ↔ Ext s τ ∧ Maps ys τ xs r.al

theorem Maps.length {ys : List Tm} {τ xs al} (h : Maps ys τ xs al) : al.length = xs.length := (List.Forall₂.length_eq h).symm

theorem Valid.length_le {ys : List Tm} {s js xs al} (h : Valid ys s js xs al) : xs.length ≤ js.length := by
  obtain ⟨nd, sub, τ, _, hm⟩ := h
  rw [← hm.length]
  exact (List.subperm_of_subset nd sub).length_le

theorem covers_spec {L : Set Nat} {f : Nat} {ord : List Nat → List Nat} (hord : ∀ l, (ord l).Perm l) {ys : List Tm}
    (hys : ∀ y ∈ ys, ∀ n ∈ vars y, n ∉ L) :
    ∀ (xs : List Tm) (i : Nat) (js : List Nat) (s : Heap) (rs : List Res), (∀ n ∈ varsL xs, n ∈ L) → js.Nodup →
      Sep L s → coversF f ord ys xs i js (some s) = some rs →
      (rs.map Res.al).Nodup ∧ (∀ al, al ∈ rs.map Res.al ↔ Valid ys s js xs al) ∧
      ∀ r ∈ rs, ResOK L ys s i js xs r := by
  intro xs
  induction xs with
  | nil =>
    intro i js s rs hL nd hs e
    simp only [coversF, Option.some.injEq] at e
    subst e
    refine ⟨by simp, fun al => ?_, fun r hr => ?_⟩
    · simp only [List.map_cons, List.map_nil, List.mem_singleton, Res.al, List.reverse_nil]
      constructor
      · rintro rfl
        exact ⟨by simp, by simp, fun n => (s n).getD (.var n), fun n t h => by simp [h], .nil⟩
      · rintro ⟨_, _, τ, _, h⟩; cases h; rfl
    · simp only [List.mem_singleton] at hr
      subst hr
      exact ⟨by simp [alDict, Res.al], by simp [Res.al], hs, by simp, fun n h => h, fun n h => .inl h,
        fun τ => by simp [Maps, Res.al]⟩
  | cons x xs ih =>
    intro i js s rs hL nd hs e
    simp only [coversF] at e
    split at e
    · rename_i hlen
      cases e
      refine ⟨by simp, fun al => ?_, by simp⟩
      simp only [List.map_nil, List.not_mem_nil, false_iff]
      intro h
      have := h.length_le
      omega
    · obtain ⟨rss, h2, rfl⟩ := collect_spec e
      have hxL : ∀ n ∈ vars x, n ∈ L := fun n hn => hL n (by simp [hn])
      have hxsL : ∀ n ∈ varsL xs, n ∈ L := fun n hn => hL n (by simp [hn])
      -- what each choice of `j` contributes
      have key : List.Forall₂ (fun j (rs : List Res) => j ∈ js → (rs.map Res.al).Nodup ∧
          (∀ al, al ∈ rs.map Res.al ↔ ∃ al', al = j :: al' ∧ Valid ys s js (x :: xs) al) ∧
          ∀ r ∈ rs, ResOK L ys s i js (x :: xs) r) (ord js) rss := by
        refine h2.imp fun j rs ej hj => ?_
        split at ej
        · cases ej
        · rename_i y hy
          split at ej
          · cases ej
          · rename_i r' hr'
            have hyL : ∀ n ∈ vars y, n ∉ L := hys y (List.mem_of_getElem? hy)
            have hc := cover_spec' hxL hs hyL hr'
            cases r' with
            | none =>
              simp only [coversF, Option.map_some, List.map_nil, Option.some.injEq] at ej
              subst ej
              refine ⟨by simp, fun al => ?_, by simp⟩
              simp only [List.map_nil, List.not_mem_nil, false_iff]
              rintro ⟨al', rfl, _, _, τ, h1, h3⟩
              cases h3 with
              | cons h3 _ =>
                rw [hy] at h3
                exact hc.fail rfl τ h1 (Option.some.inj h3).symm
            | some s' =>
              rw [Option.map_eq_some_iff] at ej
              obtain ⟨rs', e', rfl⟩ := ej
              obtain ⟨hsep, hb, ho, he⟩ := hc.ok s' rfl
              obtain ⟨i1, i2, i3⟩ := ih (i + 1) (js.erase j) s' rs' hxsL (nd.erase j) hsep e'
              have hal : ∀ r : Res, Res.al ⟨r.S, r.A ++ [(j, i)], r.R⟩ = j :: r.al := by intro r; simp [Res.al]
              have hmap : (rs'.map fun r => (⟨r.S, r.A ++ [(j, i)], r.R⟩ : Res)).map Res.al = (rs'.map Res.al).map (j :: ·) := by
                simp [hal]
              have hv : ∀ al', Valid ys s js (x :: xs) (j :: al') ↔ Valid ys s' (js.erase j) xs al' := by
                intro al'
                constructor
                · rintro ⟨n1, n2, τ, t1, t2⟩
                  cases t2 with
                  | cons t2 t3 =>
                    rw [hy] at t2
                    refine ⟨(List.nodup_cons.1 n1).2, fun k hk => ?_, τ, (he τ).2 ⟨t1, (Option.some.inj t2).symm⟩, t3⟩
                    rw [nd.mem_erase_iff]
                    exact ⟨fun h => (List.nodup_cons.1 n1).1 (h ▸ hk), n2 k (by simp [hk])⟩
                · rintro ⟨n1, n2, τ, t1, t2⟩
                  have := (he τ).1 t1
                  refine ⟨List.nodup_cons.2 ⟨fun h => (nd.mem_erase_iff.1 (n2 j h)).1 rfl, n1⟩, ?_, τ, this.1, .cons ?_ t2⟩
                  · intro k hk
                    rcases List.mem_cons.1 hk with rfl | hk
                    · exact hj
                    · exact (nd.mem_erase_iff.1 (n2 k hk)).2
                  · rw [hy, this.2]
              refine ⟨?_, fun al => ?_, ?_⟩
              · rw [hmap]
                exact i1.map (fun a b h => (List.cons.inj h).2)
              · rw [hmap, List.mem_map]
                constructor
                · rintro ⟨al', h, rfl⟩
                  exact ⟨al', rfl, (hv al').2 ((i2 al').1 h)⟩
                · rintro ⟨al', rfl, h⟩
                  exact ⟨al', (i2 al').2 ((hv al').1 h), rfl⟩
              · intro r hr
                rw [List.mem_map] at hr
                obtain ⟨r, hr, rfl⟩ := hr
                have h := i3 r hr
                refine ⟨?_, ?_, h.sep, ?_, ?_, ?_, ?_⟩
                · rw [hal]
                  simp only [alDict, List.zipIdx_cons, List.reverse_cons]
                  rw [h.dict]; rfl
                · rw [hal]
                  show r.R = _
                  rw [h.rest, nd.erase_eq_filter, List.filter_filter]
                  refine List.filter_congr fun k _ => ?_
                  by_cases hk : k = j <;> simp [hk]
                · intro n hn
                  simp only [varsL_cons, Finset.mem_union] at hn
                  rcases hn with hn | hn
                  · exact h.old n (hb n hn)
                  · exact h.bound n hn
                · exact fun n hn => h.old n (ho n hn)
                · intro n hn
                  rcases h.dom n hn with hd | hd
                  · rcases coverF_dom x hr' n hd with hd | hd
                    · exact .inl hd
                    · right; simp [hd]
                  · right; simp [hd]
                · intro τ
                  rw [hal]
                  show Ext r.S τ ↔ _
                  rw [h.ext, he]
                  constructor
                  · rintro ⟨⟨a, b⟩, c⟩
                    exact ⟨a, .cons (by rw [hy, b]) c⟩
                  · rintro ⟨a, b⟩
                    cases b with
                    | cons b c =>
                      rw [hy] at b
                      exact ⟨⟨a, (Option.some.inj b).symm⟩, c⟩
      have hperm := hord js
      have hndo : (ord js).Nodup := hperm.nodup_iff.2 nd
      have hmem : ∀ j ∈ ord js, j ∈ js := fun j hj => hperm.mem_iff.1 hj
      -- combine the choices
      have comb : ∀ (l : List Nat) (rss : List (List Res)), List.Forall₂ (fun j (rs : List Res) => j ∈ js → (rs.map Res.al).Nodup ∧
          (∀ al, al ∈ rs.map Res.al ↔ ∃ al', al = j :: al' ∧ Valid ys s js (x :: xs) al) ∧
          ∀ r ∈ rs, ResOK L ys s i js (x :: xs) r) l rss → l.Nodup → (∀ j ∈ l, j ∈ js) →
          (rss.flatten.map Res.al).Nodup ∧
          (∀ al, al ∈ rss.flatten.map Res.al ↔ ∃ j ∈ l, ∃ al', al = j :: al' ∧ Valid ys s js (x :: xs) al) ∧
          ∀ r ∈ rss.flatten, ResOK L ys s i js (x :: xs) r := by
        intro l rss h
        induction h with
        | nil => intro _ _; simp
        | @cons j rs l rss h0 _ ihc =>
          intro hn hm
          obtain ⟨c1, c2, c3⟩ := ihc (List.nodup_cons.1 hn).2 (fun k hk => hm k (by simp [hk]))
          obtain ⟨d1, d2, d3⟩ := h0 (hm j (by simp))
          refine ⟨?_, ?_, ?_⟩
          · rw [List.flatten_cons, List.map_append, List.nodup_append]
            refine ⟨d1, c1, fun a ha b hb hab => ?_⟩
            obtain ⟨a', rfl, _⟩ := (d2 a).1 ha
            obtain ⟨k, hk, b', rfl, _⟩ := (c2 b).1 hb
            rw [List.cons.injEq] at hab
            exact (List.nodup_cons.1 hn).1 (hab.1 ▸ hk)
          · intro al
            rw [List.flatten_cons, List.map_append, List.mem_append, d2, c2]
            simp
          · intro r hr
            rw [List.flatten_cons, List.mem_append] at hr
            rcases hr with hr | hr
            · exact d3 r hr
            · exact c3 r hr
      obtain ⟨c1, c2, c3⟩ := comb _ _ key hndo hmem
      refine ⟨c1, fun al => ?_, c3⟩
      rw [c2]
      constructor
      · rintro ⟨j, _, al', rfl, h⟩; exact h
      · intro h
        have hv := h
        obtain ⟨n1, n2, τ, t1, t2⟩ := h
        cases t2 with
        | cons t2 t3 =>
          rename_i j al'
          exact ⟨j, hperm.mem_iff.2 (n2 j (by simp)), al', rfl, hv⟩

theorem coversF_total {L : Set Nat} {ord : List Nat → List Nat} (hord : ∀ l, (ord l).Perm l) {ys : List Tm}
    (hys : ∀ y ∈ ys, ∀ n ∈ vars y, n ∉ L) :
    ∀ (xs : List Tm) (i : Nat) (js : List Nat) (s : Option Heap), (∀ n ∈ varsL xs, n ∈ L) → (∀ j ∈ js, j < ys.length) →
      (∀ s', s = some s' → Sep L s') → Evt fun f => coversF f ord ys xs i js s ≠ none := by
  intro xs
  induction xs with
  | nil => intro i js s _ _ _; exact Evt.of_all fun f => by cases s <;> simp [coversF]
  | cons x xs ih =>
    intro i js s hL hjs hs
    cases s with
    | none => exact Evt.of_all fun f => by simp [coversF]
    | some s =>
      by_cases hlen : (x :: xs).length > js.length
      · exact Evt.of_all fun f => by
          rw [coversF, if_pos hlen]; simp
      · have h : ∀ j ∈ ord js, Evt fun f => (match ys[j]? with
          | none => none
          | some y => match Subst.coverF f s x y with
            | none => none
            | some s' => (coversF f ord ys xs (i + 1) (js.erase j) s').map
              (List.map fun r => (⟨r.S, r.A ++ [(j, i)], r.R⟩ : Res))) ≠ none := by
          intro j hj
          have hj := (hord js).mem_iff.1 hj
          obtain ⟨y, hy⟩ : ∃ y, ys[j]? = some y := ⟨_, List.getElem?_eq_getElem (hjs j hj)⟩
          obtain ⟨r, h1, h2⟩ := cover_total (L := L) x (fun n hn => hL n (by simp [hn])) s y (hs s rfl)
            (hys y (List.mem_of_getElem? hy))
          have h3 := ih (i + 1) (js.erase j) r (fun n hn => hL n (by simp [hn]))
            (fun k hk => hjs k (List.mem_of_mem_erase hk)) (fun s' e => (h1.ok s' e).1)
          refine (h2.and h3).mono fun f e => ?_
          simp only [hy, e.1]
          simpa using e.2
        refine (collect_evt h).mono fun f e => ?_
        rw [coversF, if_neg hlen]
        exact e

/-! ### Property C15 -/

theorem sep_empty (L : Set Nat) : Sep L (fun _ => none) := ⟨fun n t h => by simp at h, fun n t h => by simp at h⟩

theorem disj_list {xs ys : List Tm} (hd : Disjoint (varsL xs) (varsL ys)) :
    ∀ y ∈ ys, ∀ n ∈ vars y, n ∉ (↑(varsL xs) : Set Nat) := by
  intro y hy n hn hx
  exact Finset.disjoint_left.1 hd hx (by rw [mem_varsL]; exact ⟨y, hy, hn⟩)

/-- The alignments produced by `xs.covers(ys)` are exactly the one-to-one alignments for which a common
matching substitution exists, each produced once - whatever the order in which sets are iterated. -/
theorem C15_exact {ord : List Nat → List Nat} (hord : ∀ l, (ord l).Perm l) {xs ys : List Tm}
    (hd : Disjoint (varsL xs) (varsL ys)) {f : Nat} {rs : List Res} (e : covers f ord xs ys = some rs) :
    (rs.map Res.al).Nodup ∧
    ∀ al, al ∈ rs.map Res.al ↔
      al.Nodup ∧ (∀ j ∈ al, j < ys.length) ∧ ∃ τ, List.Forall₂ (fun x j => ys[j]? = some (x.sub τ)) xs al := by
  obtain ⟨h1, h2, _⟩ := covers_spec hord (disj_list hd) xs 0 _ _ rs (fun n hn => hn) List.nodup_range (sep_empty _) e
  refine ⟨h1, fun al => (h2 al).trans ?_⟩
  simp [Valid, Ext, Maps]

/-- Every result records its alignment as a dict from subgoals of `ys` to subgoals of `xs`, lists the
unused subgoals in ascending order, and its substitution maps every subgoal exactly to its partner;
the substitution binds just the variables of `xs`, and every other matching substitution agrees with
it. -/
theorem C15_result {ord : List Nat → List Nat} (hord : ∀ l, (ord l).Perm l) {xs ys : List Tm}
    (hd : Disjoint (varsL xs) (varsL ys)) {f : Nat} {rs : List Res} (e : covers f ord xs ys = some rs)
    {r : Res} (hr : r ∈ rs) :
    (∀ j i, (j, i) ∈ r.A ↔ r.al[i]? = some j) ∧ (r.A.map Prod.fst).Nodup ∧
    r.R.Pairwise (· < ·) ∧ (∀ j, j ∈ r.R ↔ j < ys.length ∧ j ∉ r.al) ∧
    (∀ n, r.S n ≠ none ↔ n ∈ varsL xs) ∧
    (∃ M, ∀ g ≥ M, List.Forall₂ (fun x j => ∃ y, ys[j]? = some y ∧ callF r.S g x = some y) xs r.al) ∧
    ∀ τ, List.Forall₂ (fun x j => ys[j]? = some (x.sub τ)) xs r.al → ∀ n t, r.S n = some t → τ n = t := by
  obtain ⟨h1, h2, h3⟩ := covers_spec hord (disj_list hd) xs 0 _ _ rs (fun n hn => hn) List.nodup_range (sep_empty _) e
  have h := h3 r hr
  have hv := (h2 r.al).1 (List.mem_map_of_mem hr)
  have hgood : Heap.Good r.S := by
    intro n
    cases hn : r.S n with
    | none => exact ⟨1, .var n, by simp [Heap.derefF, hn]⟩
    | some t =>
      obtain ⟨g, hg⟩ := deref_id (s := r.S) t (fun x hx => by
        by_contra hc
        obtain ⟨u, hu⟩ := Option.ne_none_iff_exists'.1 hc
        exact h.sep.rng n t hn x hx (h.sep.dom x u hu))
      exact ⟨g + 1, t, by simp [Heap.derefF, hn, hg]⟩
  refine ⟨fun j i => ?_, ?_, ?_, fun j => ?_, fun n => ⟨fun hn => ?_, h.bound n⟩, ?_, fun τ ht => ?_⟩
  · rw [h.dict, alDict, List.mem_reverse, List.mem_zipIdx_iff_getElem?]
  · have := hv.1
    simp only [Res.al, List.nodup_reverse] at this
    exact this
  · rw [h.rest]
    exact (List.pairwise_lt_range).filter _
  · rw [h.rest]; simp
  · rcases h.dom n hn with h | h
    · simp at h
    · exact h
  · have hext : Ext r.S (Heap.res r.S) := by
      intro n t hn
      rw [hgood.res_bound hn]
      conv_rhs => rw [← sub_id t]
      refine sub_congr fun x hx => Heap.res_unbound ?_
      by_contra hc
      obtain ⟨u, hu⟩ := Option.ne_none_iff_exists'.1 hc
      exact h.sep.rng n t hn x hx (h.sep.dom x u hu)
    have hm := ((h.ext _).1 hext).2
    have : ∀ (xs : List Tm) (al : List Nat), Maps ys (Heap.res r.S) xs al →
        ∃ M, ∀ g ≥ M, List.Forall₂ (fun x j => ∃ y, ys[j]? = some y ∧ callF r.S g x = some y) xs al := by
      intro xs al hm
      induction hm with
      | nil => exact ⟨0, fun g _ => .nil⟩
      | @cons x j _ _ hx _ ih =>
        obtain ⟨M, hM⟩ := ih
        obtain ⟨M', hM'⟩ := hgood.evt_deref x
        exact ⟨max M M', fun g hg => .cons ⟨_, hx, hM' g (le_trans (le_max_right _ _) hg)⟩
          (hM g (le_trans (le_max_left _ _) hg))⟩
    exact this xs r.al hm
  · exact (h.ext τ).2 ⟨fun n t hn => by simp at hn, ht⟩

/-- `xs.covers(ys)` terminates. -/
theorem C15_terminates {ord : List Nat → List Nat} (hord : ∀ l, (ord l).Perm l) {xs ys : List Tm}
    (hd : Disjoint (varsL xs) (varsL ys)) : ∃ N, ∀ f ≥ N, covers f ord xs ys ≠ none :=
  coversF_total hord (disj_list hd) xs 0 _ _ (fun n hn => hn) (by simp) (fun s' e => by
    cases e; exact sep_empty _)

section
private def p1 (s : String) (t : Tm) : Tm := .app [.con (.str s), t]
/-- `[f(X), f(Y)]` into `[f(a), g(b), f(c)]`: two alignments, `g(b)` unused -/
example : ((covers 10 id [p1 "f" (.var 0), p1 "f" (.var 1)]
    [p1 "f" (.con (.str "a")), p1 "g" (.con (.str "b")), p1 "f" (.con (.str "c"))]).map
      (List.map fun r => (r.al, r.A, r.R))) = some [([0, 2], [(2, 1), (0, 0)], [1]), ([2, 0], [(0, 1), (2, 0)], [1])] := by
  decide +kernel
end

/-! ### Commutative matching -/

/-- what `_match_comm` yields for alignment `al` -/
structure MOK (L : Set Nat) (ys : List Tm) (s : Heap) (xs : List Tm) (al : List Nat) (S : Heap) : Prop where
  sep : Sep L S
  bound : ∀ n ∈ varsL xs, S n ≠ none
  old : ∀ n, s n ≠ none → S n ≠ none
  dom : ∀ n, S n ≠ none → s n ≠ none ∨ n ∈ varsL xs
  ext : ∀ τ, Ext S τ ↔ Ext s τ ∧ Maps ys τ xs al

theorem matchF_spec {L : Set Nat} {f : Nat} {ys : List Tm} (hys : ∀ y ∈ ys, ∀ n ∈ vars y, n ∉ L) :
    ∀ (xs : List Tm) (js : List Nat) (s : Heap) (rs : List Heap), (∀ n ∈ varsL xs, n ∈ L) → js.Nodup →
      Sep L s → matchF f ys xs js (some s) = some rs →
      (∀ S ∈ rs, ∃ al, al.Nodup ∧ (∀ j ∈ al, j ∈ js) ∧ (xs ≠ [] → al.length = js.length) ∧ MOK L ys s xs al S) ∧
      (∀ al τ, al.Nodup → (∀ j ∈ al, j ∈ js) → al.length = js.length → Ext s τ → Maps ys τ xs al →
        ∃ S ∈ rs, MOK L ys s xs al S) := by
  intro xs
  induction xs with
  | nil =>
    intro js s rs hL nd hs e
    simp only [matchF, Option.some.injEq] at e
    subst e
    have hok : MOK L ys s [] [] s := ⟨hs, by simp, fun n h => h, fun n h => .inl h, fun τ => by simp [Maps]⟩
    refine ⟨fun S hS => ?_, fun al τ _ _ _ _ hm => ?_⟩
    · rw [List.mem_singleton] at hS
      subst hS
      exact ⟨[], by simp, by simp, by simp, hok⟩
    · cases hm
      exact ⟨s, by simp, hok⟩
  | cons x xs ih =>
    intro js s rs hL nd hs e
    simp only [matchF] at e
    split at e
    · rename_i hlen
      cases e
      refine ⟨by simp, fun al τ _ _ h _ hm => absurd ?_ hlen⟩
      rw [← h, hm.length]
    · rename_i hlen
      rw [not_not] at hlen
      obtain ⟨rss, h2, rfl⟩ := collect_spec e
      have hxL : ∀ n ∈ vars x, n ∈ L := fun n hn => hL n (by simp [hn])
      have hxsL : ∀ n ∈ varsL xs, n ∈ L := fun n hn => hL n (by simp [hn])
      have key : List.Forall₂ (fun j (rs : List Heap) => j ∈ js →
          (∀ S ∈ rs, ∃ al, (j :: al).Nodup ∧ (∀ k ∈ al, k ∈ js) ∧ (j :: al).length = js.length ∧ MOK L ys s (x :: xs) (j :: al) S) ∧
          (∀ al τ, (j :: al).Nodup → (∀ k ∈ al, k ∈ js) → (j :: al).length = js.length → Ext s τ → Maps ys τ (x :: xs) (j :: al) →
            ∃ S ∈ rs, MOK L ys s (x :: xs) (j :: al) S)) js rss := by
        refine h2.imp fun j rs ej hj => ?_
        split at ej
        · cases ej
        · rename_i y hy
          split at ej
          · cases ej
          · rename_i r' hr'
            have hyL : ∀ n ∈ vars y, n ∉ L := hys y (List.mem_of_getElem? hy)
            have hc := cover_spec' hxL hs hyL hr'
            cases r' with
            | none =>
              simp only [matchF, Option.some.injEq] at ej
              subst ej
              refine ⟨by simp, ?_⟩
              rintro al τ _ _ _ h1 h3
              cases h3 with
              | cons h3 _ =>
                rw [hy] at h3
                exact absurd (Option.some.inj h3).symm (hc.fail rfl τ h1)
            | some s' =>
              obtain ⟨hsep, hb, ho, he⟩ := hc.ok s' rfl
              obtain ⟨i1, i2⟩ := ih (js.erase j) s' rs hxsL (nd.erase j) hsep ej
              have hl : (js.erase j).length + 1 = js.length := by
                rw [List.length_erase_of_mem hj]
                have := List.length_pos_of_mem hj
                omega
              have lift : ∀ al S, MOK L ys s' xs al S → MOK L ys s (x :: xs) (j :: al) S := by
                intro al S h
                refine ⟨h.sep, ?_, fun n hn => h.old n (ho n hn), ?_, ?_⟩
                · intro n hn
                  simp only [varsL_cons, Finset.mem_union] at hn
                  rcases hn with hn | hn
                  · exact h.old n (hb n hn)
                  · exact h.bound n hn
                · intro n hn
                  rcases h.dom n hn with hd | hd
                  · rcases coverF_dom x hr' n hd with hd | hd
                    · exact .inl hd
                    · right; simp [hd]
                  · right; simp [hd]
                · intro τ
                  rw [h.ext, he]
                  constructor
                  · rintro ⟨⟨a, b⟩, c⟩
                    exact ⟨a, .cons (by rw [hy, b]) c⟩
                  · rintro ⟨a, b⟩
                    cases b with
                    | cons b c =>
                      rw [hy] at b
                      exact ⟨⟨a, (Option.some.inj b).symm⟩, c⟩
              refine ⟨fun S hS => ?_, fun al τ n1 n2 n3 t1 t2 => ?_⟩
              · obtain ⟨al, a1, a2, a3, a4⟩ := i1 S hS
                refine ⟨al, List.nodup_cons.2 ⟨fun h => (nd.mem_erase_iff.1 (a2 j h)).1 rfl, a1⟩,
                  fun k hk => (nd.mem_erase_iff.1 (a2 k hk)).2, ?_, lift al S a4⟩
                cases hxs : xs with
                | nil =>
                  have := (a4.ext (fun n => (S n).getD (.var n))).1 (fun n t h => by simp [h])
                  have := this.2.length
                  simp only [List.length_cons]
                  rw [this]
                  simpa using hlen
                | cons _ _ =>
                  have := a3 (by simp [hxs])
                  simp only [List.length_cons]; omega
              · cases t2 with
                | cons t2 t3 =>
                  rw [hy] at t2
                  obtain ⟨S, hS, h⟩ := i2 al τ (List.nodup_cons.1 n1).2 (fun k hk => by
                    rw [nd.mem_erase_iff]
                    exact ⟨fun h => (List.nodup_cons.1 n1).1 (h ▸ hk), n2 k hk⟩) (by
                      simp only [List.length_cons] at n3; omega) ((he τ).2 ⟨t1, (Option.some.inj t2).symm⟩) t3
                  exact ⟨S, hS, lift al S h⟩
      constructor
      · intro S hS
        rw [List.mem_flatten] at hS
        obtain ⟨rs, hrs, hS⟩ := hS
        obtain ⟨j, hj, h⟩ := forall₂_mem_right key hrs
        obtain ⟨al, a1, a2, a3, a4⟩ := (h hj).1 S hS
        refine ⟨j :: al, a1, ?_, fun _ => a3, a4⟩
        intro k hk
        rcases List.mem_cons.1 hk with rfl | hk
        · exact hj
        · exact a2 k hk
      · intro al τ n1 n2 n3 t1 t2
        cases t2 with
        | cons t2 t3 =>
          rename_i j al
          obtain ⟨rs, hrs, h⟩ := forall₂_mem_left key (n2 j (by simp))
          obtain ⟨S, hS, h⟩ := (h (n2 j (by simp))).2 al τ n1 (fun k hk => n2 k (by simp [hk])) n3 t1 (.cons t2 t3)
          exact ⟨S, List.mem_flatten.2 ⟨rs, hrs, hS⟩, h⟩

theorem matchF_total {L : Set Nat} {ys : List Tm} (hys : ∀ y ∈ ys, ∀ n ∈ vars y, n ∉ L) :
    ∀ (xs : List Tm) (js : List Nat) (s : Option Heap), (∀ n ∈ varsL xs, n ∈ L) → (∀ j ∈ js, j < ys.length) →
      (∀ s', s = some s' → Sep L s') → ∃ rs, Evt fun f => matchF f ys xs js s = some rs := by
  intro xs
  induction xs with
  | nil => intro js s _ _ _; cases s <;> exact ⟨_, Evt.of_all fun f => by simp [matchF]; rfl⟩
  | cons x xs ih =>
    intro js s hL hjs hs
    cases s with
    | none => exact ⟨_, Evt.of_all fun f => by simp [matchF]; rfl⟩
    | some s =>
      by_cases hlen : (x :: xs).length ≠ js.length
      · exact ⟨[], Evt.of_all fun f => by rw [matchF, if_pos hlen]⟩
      · suffices h : ∀ l : List Nat, (∀ j ∈ l, j < ys.length) → ∃ rs, Evt fun f => collect (fun j => match ys[j]? with
          | none => none
          | some y => match Subst.coverF f s x y with
            | none => none
            | some s' => matchF f ys xs (js.erase j) s') l = some rs by
          obtain ⟨rs, h⟩ := h js hjs
          exact ⟨rs, h.mono fun f e => by rw [matchF, if_neg hlen]; exact e⟩
        intro l
        induction l with
        | nil => intro _; exact ⟨[], Evt.of_all fun f => rfl⟩
        | cons j l ihl =>
          intro hl
          obtain ⟨rs, h⟩ := ihl fun k hk => hl k (by simp [hk])
          obtain ⟨y, hy⟩ : ∃ y, ys[j]? = some y := ⟨_, List.getElem?_eq_getElem (hl j (by simp))⟩
          obtain ⟨r, h1, h2⟩ := cover_total (L := L) x (fun n hn => hL n (by simp [hn])) s y (hs s rfl)
            (hys y (List.mem_of_getElem? hy))
          obtain ⟨rs', h3⟩ := ih (js.erase j) r (fun n hn => hL n (by simp [hn]))
            (fun k hk => hjs k (List.mem_of_mem_erase hk)) (fun s' e => (h1.ok s' e).1)
          refine ⟨rs' ++ rs, ((h.and h2).and h3).mono fun f e => ?_⟩
          simp only [collect, hy, e.1.2, e.2, e.1.1]

end Product

/-- rearranging a list is choosing its positions in some order -/
theorem perm_positions {α : Type} : ∀ {l1 l2 : List α}, l1.Perm l2 →
    ∃ al : List Nat, al.Nodup ∧ (∀ j ∈ al, j < l2.length) ∧ List.Forall₂ (fun x j => l2[j]? = some x) l1 al := by
  intro l1
  induction l1 with
  | nil => intro l2 _; exact ⟨[], by simp, by simp, .nil⟩
  | cons a l1 ih =>
    intro l2 h
    obtain ⟨s, t, rfl⟩ := List.append_of_mem (h.mem_iff.1 (by simp : a ∈ a :: l1))
    have h' : l1.Perm (s ++ t) := (List.perm_cons a).1 (h.trans List.perm_middle)
    obtain ⟨al, a1, a2, a3⟩ := ih h'
    let g : Nat → Nat := fun j => if j < s.length then j else j + 1
    have gi : Function.Injective g := by
      intro i j h; simp only [g] at h; split at h <;> split at h <;> omega
    refine ⟨s.length :: al.map g, ?_, ?_, ?_⟩
    · rw [List.nodup_cons]
      refine ⟨fun hm => ?_, a1.map gi⟩
      rw [List.mem_map] at hm
      obtain ⟨j, _, hj⟩ := hm
      simp only [g] at hj; split at hj <;> omega
    · intro j hj
      rcases List.mem_cons.1 hj with rfl | hj
      · simp
      · rw [List.mem_map] at hj
        obtain ⟨j, hj2, rfl⟩ := hj
        have := a2 j hj2
        simp only [List.length_append, List.length_cons, g] at this ⊢; split <;> omega
    · refine .cons (by simp) ?_
      rw [List.forall₂_map_right_iff]
      refine a3.imp fun x j hx => ?_
      simp only [g]
      split
      · rename_i hlt
        rw [List.getElem?_append_left hlt] at hx ⊢; exact hx
      · rename_i hge
        rw [List.getElem?_append_right (by omega)] at hx ⊢
        have : j + 1 - s.length = (j - s.length) + 1 := by omega
        rw [this]; simpa using hx

theorem positions_perm {α : Type} {l1 l2 : List α} {al : List Nat} (nd : al.Nodup) (lt : ∀ j ∈ al, j < l2.length)
    (hl : al.length = l2.length) (h : List.Forall₂ (fun x j => l2[j]? = some x) l1 al) : l1.Perm l2 := by
  have hp : al.Perm (List.range l2.length) :=
    (List.subperm_of_subset nd fun j hj => List.mem_range.2 (lt j hj)).perm_of_length_le (by simp [hl])
  have h1 : l1.map some = al.map (l2[·]?) := by
    clear hp lt nd hl
    induction h with
    | nil => rfl
    | cons hx _ ih => simp [hx, ih]
  have h2 : (l1.map some).Perm (l2.map some) := by
    rw [h1]
    refine (hp.map _).trans (List.Perm.of_eq ?_)
    refine List.ext_getElem? fun i => ?_
    by_cases hi : i < l2.length
    · simp [hi]
    · simp [hi]
  have := h2.filterMap id
  simpa [List.filterMap_map] using this

namespace Rule
open Subst Product

/-! ### Specification: equality up to renaming and reordering -/

/-- `o` is `r` with variables renamed one-to-one and subgoals rearranged -/
def RuleVariant (r o : Rule) : Prop :=
  ∃ ρ : Nat → Nat, Set.InjOn ρ (vars r.tm) ∧ o.head = r.head.sub (fun n => .var (ρ n)) ∧
    o.body.Perm (r.body.map (Tm.sub fun n => .var (ρ n)))

theorem ruleVariant_iff {r o : Rule} : RuleVariant r o ↔ ∃ b, b.Perm o.body ∧ Variant r.tm (tm ⟨o.head, b⟩) := by
  constructor
  · rintro ⟨ρ, h1, h2, h3⟩
    exact ⟨_, h3.symm, ρ, h1, by simp [tm, h2, subL_eq_map]⟩
  · rintro ⟨b, h1, ρ, h2, h3⟩
    simp only [tm, sub_app, Tm.app.injEq, List.map_cons, List.cons.injEq] at h3
    exact ⟨ρ, h2, h3.1, h3.2 ▸ h1.symm⟩

theorem vars_perm {h : Tm} {b b' : List Tm} (hp : b.Perm b') : vars (tm ⟨h, b⟩) = vars (tm ⟨h, b'⟩) := by
  ext n
  simp only [tm, vars_app, mem_varsL, List.mem_cons, exists_eq_or_imp, hp.mem_iff]

theorem RuleVariant.refl (r : Rule) : RuleVariant r r := ruleVariant_iff.2 ⟨r.body, .refl _, Variant.refl _⟩

theorem variant_perm {h h' : Tm} {b c c' : List Tm} (hv : Variant (tm ⟨h, c⟩) (tm ⟨h', b⟩)) (hp : c.Perm c') :
    ∃ b', b.Perm b' ∧ Variant (tm ⟨h, c'⟩) (tm ⟨h', b'⟩) := by
  obtain ⟨ρ, h1, h2⟩ := hv
  simp only [tm, sub_app, Tm.app.injEq, List.map_cons, List.cons.injEq] at h2
  refine ⟨c'.map (Tm.sub fun n => .var (ρ n)), h2.2 ▸ hp.map _, ρ, ?_, ?_⟩
  · rw [← vars_perm hp]; exact h1
  · simp [tm, h2.1]

theorem RuleVariant.symm {r o : Rule} (h : RuleVariant r o) : RuleVariant o r := by
  rw [ruleVariant_iff] at h ⊢
  obtain ⟨b, h1, h2⟩ := h
  obtain ⟨b', h3, h4⟩ := variant_perm (h := o.head) h2.symm h1
  exact ⟨b', h3.symm, h4⟩

theorem RuleVariant.trans {r o p : Rule} (h : RuleVariant r o) (h' : RuleVariant o p) : RuleVariant r p := by
  rw [ruleVariant_iff] at h h' ⊢
  obtain ⟨b, h1, h2⟩ := h
  obtain ⟨c, h3, h4⟩ := h'
  obtain ⟨c', h5, h6⟩ := variant_perm (h := o.head) h4 h1.symm
  exact ⟨c', h5.symm.trans h3, h2.trans h6⟩

/-- heads and subgoals are terms or constants, not bare variables -/
def Proper (r : Rule) : Prop := ∀ x ∈ r.head :: r.body, ∀ n, x ≠ .var n

/-! ### Lemmas -/

theorem termSig_ren {cv : Nat → Nat} (hcv : Function.Injective cv) {x : Tm} (hx : ∀ n, x ≠ .var n) {ρ : Nat → Nat}
    (hρ : Set.InjOn ρ (vars x)) : termSig cv (x.sub fun n => .var (ρ n)) = termSig cv x := by
  cases x with
  | var n => exact absurd rfl (hx n)
  | con c => simp [termSig]
  | app as =>
    have := (canonP_eq_iff hcv (x := .app as) (y := (Tm.app as).sub fun n => .var (ρ n))).2 ⟨ρ, hρ, rfl⟩
    simp only [termSig]
    rw [this]
    simp [termSig]

theorem signature_variant {cv : Nat → Nat} (hcv : Function.Injective cv) {r o : Rule} (hr : r.Proper)
    (h : RuleVariant r o) : signature cv r = signature cv o := by
  obtain ⟨ρ, h1, h2, h3⟩ := h
  have hsub : ∀ x ∈ r.head :: r.body, Set.InjOn ρ (vars x) := by
    intro x hx
    refine h1.mono fun n hn => ?_
    simp only [tm, vars_app, Finset.mem_coe, mem_varsL]
    exact ⟨x, hx, hn⟩
  simp only [signature, Prod.mk.injEq]
  constructor
  · rw [h2, termSig_ren hcv (hr _ (by simp)) (hsub _ (by simp))]
  · rw [Multiset.coe_eq_coe]
    refine List.Perm.symm ((h3.map _).trans (List.Perm.of_eq ?_))
    rw [List.map_map]
    refine List.map_congr_left fun x hx => ?_
    exact termSig_ren hcv (hr x (by simp [hx])) (hsub x (by simp [hx]))

theorem nonSpec_iff {ks : Finset Nat} {s : Heap} : nonSpec ks s = true ↔
    (∀ n ∈ ks, s n ≠ none → ∃ m, s n = some (.var m)) ∧ ∀ a ∈ ks, ∀ b ∈ ks, s a ≠ none → s a = s b → a = b := by
  simp only [nonSpec, Bool.and_eq_true, decide_eq_true_eq]
  refine and_congr ?_ ?_
  · constructor
    · intro h n h1 h2
      have := h (s n) (Finset.mem_image.2 ⟨n, by simp [h1, h2], rfl⟩)
      unfold isVar at this
      split at this
      · rename_i m e; exact ⟨m, e⟩
      · cases this
    · intro h v hv
      obtain ⟨n, hn, rfl⟩ := Finset.mem_image.1 hv
      rw [Finset.mem_filter] at hn
      obtain ⟨m, hm⟩ := h n hn.1 hn.2
      simp [hm, isVar]
  · rw [eq_comm, Finset.card_image_iff]
    constructor
    · intro h a ha b hb hs e
      exact h (by simp [ha, hs]) (by simp only [Finset.coe_filter, Set.mem_setOf_eq]; exact ⟨hb, e ▸ hs⟩) e
    · intro h a ha b hb e
      simp only [Finset.coe_filter, Set.mem_setOf_eq] at ha hb
      exact h a ha.1 b hb.1 ha.2 e

theorem fresh_tm (fv : Nat → Nat) (k : Nat) (r : Rule) : (r.fresh fv k).tm = (freshV fv k r.tm).1 := by
  simp [fresh, tm, freshV, ren, renL]

theorem fresh_variant {fv : Nat → Nat} (hfv : Function.Injective fv) (k : Nat) (r : Rule) :
    RuleVariant r (r.fresh fv k) := by
  rw [ruleVariant_iff]
  refine ⟨(r.fresh fv k).body, .refl _, ?_⟩
  have : (⟨(r.fresh fv k).head, (r.fresh fv k).body⟩ : Rule) = r.fresh fv k := rfl
  rw [this, fresh_tm]
  exact (freshV_spec hfv k r.tm).1

theorem good_of_sep {L : Set Nat} {S : Heap} (h : Sep L S) : Heap.Good S := by
  intro n
  cases hn : S n with
  | none => exact ⟨1, .var n, by simp [Heap.derefF, hn]⟩
  | some t =>
    obtain ⟨g, hg⟩ := deref_id (s := S) t (fun x hx => by
      by_contra hc
      obtain ⟨u, hu⟩ := Option.ne_none_iff_exists'.1 hc
      exact h.rng n t hn x hx (h.dom x u hu))
    exact ⟨g + 1, t, by simp [Heap.derefF, hn, hg]⟩

theorem ext_res {L : Set Nat} {S : Heap} (h : Sep L S) : Ext S (Heap.res S) := by
  intro n t hn
  rw [(good_of_sep h).res_bound hn]
  conv_rhs => rw [← sub_id t]
  refine sub_congr fun x hx => Heap.res_unbound ?_
  by_contra hc
  obtain ⟨u, hu⟩ := Option.ne_none_iff_exists'.1 hc
  exact h.rng n t hn x hx (h.dom x u hu)

theorem anyMatch_spec {f : Nat} {r o : Rule} : ∀ {ss : List Heap} {b : Bool},
    (∀ s ∈ ss, ∀ h, callF s f r.head = some h → h = o.head) → anyMatch f r o ss = some b →
    (b = true ↔ ∃ s ∈ ss, nonSpec (vars r.tm) s = true) := by
  intro ss
  induction ss with
  | nil => intro b _ e; simp only [anyMatch, Option.some.injEq] at e; simp [← e]
  | cons s ss ih =>
    intro b hs e
    simp only [anyMatch] at e
    split at e
    · rename_i hn
      split at e
      · cases e
      · rename_i h hh
        rw [if_pos (hs s (by simp) h hh)] at e
        cases e
        simp [hn]
    · rename_i hn
      rw [ih (fun s hs' => hs s (by simp [hs'])) e]
      simp [hn]

theorem anyMatch_total {r o : Rule} : ∀ (ss : List Heap), (∀ s ∈ ss, Heap.Good s) →
    Evt fun f => anyMatch f r o ss ≠ none := by
  intro ss
  induction ss with
  | nil => intro _; exact Evt.of_all fun f => by simp [anyMatch]
  | cons s ss ih =>
    intro h
    refine (((h s (by simp)).evt_deref r.head).and (ih fun s hs => h s (by simp [hs]))).mono fun f e => ?_
    simp only [anyMatch]
    have e1 : callF s f r.head = _ := e.1
    simp only [e1]
    split
    · split
      · simp
      · exact e.2
    · exact e.2

theorem disj_head {r o : Rule} (hd : Disjoint (vars r.tm) (vars o.tm)) :
    (∀ n ∈ vars r.head, n ∈ (↑(vars r.tm) : Set Nat)) ∧ (∀ n ∈ varsL r.body, n ∈ (↑(vars r.tm) : Set Nat)) ∧
    (∀ n ∈ vars o.head, n ∉ (↑(vars r.tm) : Set Nat)) ∧ ∀ y ∈ o.body, ∀ n ∈ vars y, n ∉ (↑(vars r.tm) : Set Nat) := by
  refine ⟨fun n hn => ?_, fun n hn => ?_, fun n hn hr => ?_, fun y hy n hn hr => ?_⟩
  · simp [tm, hn]
  · simp [tm, hn]
  · exact Finset.disjoint_left.1 hd hr (by simp [tm, hn])
  · refine Finset.disjoint_left.1 hd hr ?_
    simp only [tm, vars_app, mem_varsL]
    exact ⟨y, by simp [hy], hn⟩

/-- the matching part of `same` (79-87) on variable-disjoint rules -/
theorem match_spec {r o : Rule} (hd : Disjoint (vars r.tm) (vars o.tm)) (hb : r.body = [] → o.body = []) {f : Nat} {s ss b}
    (e1 : coverF f (fun _ => none) r.head o.head = some s)
    (e2 : matchF f o.body r.body (List.range o.body.length) s = some ss)
    (e3 : anyMatch f r o ss = some b) : b = true ↔ RuleVariant r o := by
  obtain ⟨d1, d2, d3, d4⟩ := disj_head hd
  have hc := cover_spec' d1 (sep_empty _) d3 e1
  cases s with
  | none =>
    simp only [matchF, Option.some.injEq] at e2
    subst e2
    simp only [anyMatch, Option.some.injEq] at e3
    subst e3
    simp only [Bool.false_eq_true, false_iff]
    rintro ⟨ρ, h1, h2, h3⟩
    exact hc.fail rfl _ (fun n t h => by simp at h) h2.symm
  | some s =>
    obtain ⟨hsep, hbd, _, he⟩ := hc.ok s rfl
    obtain ⟨m1, m2⟩ := matchF_spec d4 r.body _ s ss d2 List.nodup_range hsep e2
    have hcall : ∀ S ∈ ss, ∀ h, callF S f r.head = some h → h = o.head := by
      intro S hS h hh
      obtain ⟨al, _, _, _, a4⟩ := m1 S hS
      have h1 := ((a4.ext _).1 (ext_res a4.sep)).1
      have h2 := ((he _).1 h1).2
      obtain ⟨M, hM⟩ := (good_of_sep a4.sep).evt_deref r.head
      have h3 := Heap.deref_mono hh (le_max_left f M)
      rw [hM _ (le_max_right f M)] at h3
      rw [← Option.some.inj h3, h2]
    rw [anyMatch_spec hcall e3]
    constructor
    · rintro ⟨S, hS, hns⟩
      obtain ⟨al, a1, a2, a3, a4⟩ := m1 S hS
      rw [nonSpec_iff] at hns
      obtain ⟨n1, n2⟩ := hns
      let ρ : Nat → Nat := fun n => match S n with | some (.var m) => m | _ => n
      have hρ : ∀ n, S n ≠ none → S n = some (.var (ρ n)) := by
        intro n hn
        have hn' : n ∈ vars r.tm := by
          obtain ⟨t, ht⟩ := Option.ne_none_iff_exists'.1 hn
          exact a4.sep.dom n t ht
        obtain ⟨m, hm⟩ := n1 n hn' hn
        simp [ρ, hm]
      have hbound : ∀ n ∈ vars r.tm, S n ≠ none := by
        intro n hn
        simp only [tm, vars_app, varsL_cons, Finset.mem_union] at hn
        rcases hn with hn | hn
        · exact a4.old n (hbd n hn)
        · exact a4.bound n hn
      have hext : Ext S (fun n => .var (ρ n)) := by
        intro n t ht
        have := hρ n (by simp [ht])
        rw [ht] at this
        exact (Option.some.inj this).symm
      obtain ⟨x1, x2⟩ := (a4.ext _).1 hext
      refine ⟨ρ, ?_, ((he _).1 x1).2.symm, ?_⟩
      · intro a ha b hb hab
        have h1 := hρ a (hbound a ha)
        have h2 := hρ b (hbound b hb)
        exact n2 a ha b hb (hbound a ha) (by rw [h1, h2, hab])
      · refine (positions_perm a1 (fun j hj => List.mem_range.1 (a2 j hj)) ?_ (List.forall₂_map_left_iff.2 x2)).symm
        by_cases hr : r.body = []
        · have := x2.length
          rw [hr] at this
          rw [this, hb hr]
        · simpa using a3 hr
    · rintro ⟨ρ, h1, h2, h3⟩
      obtain ⟨al, b1, b2, b3⟩ := perm_positions h3.symm
      rw [List.forall₂_map_left_iff] at b3
      have hl : al.length = o.body.length := by
        rw [← b3.length_eq, h3.length_eq, List.length_map]
      obtain ⟨S, hS, hm⟩ := m2 al (fun n => .var (ρ n)) b1 (fun j hj => List.mem_range.2 (b2 j hj)) (by simp [hl])
        ((he _).2 ⟨fun n t h => by simp at h, h2.symm⟩) b3
      refine ⟨S, hS, nonSpec_iff.2 ?_⟩
      have hext : Ext S (fun n => .var (ρ n)) := (hm.ext _).2 ⟨(he _).2 ⟨fun n t h => by simp at h, h2.symm⟩, b3⟩
      have hv : ∀ n, S n ≠ none → S n = some (.var (ρ n)) := by
        intro n hn
        obtain ⟨t, ht⟩ := Option.ne_none_iff_exists'.1 hn
        rw [ht, ← hext n t ht]
      refine ⟨fun n _ hn => ⟨_, hv n hn⟩, fun a ha b hb hs hab => ?_⟩
      have h1' := hv a hs
      have h2' := hv b (hab ▸ hs)
      rw [hab, h2'] at h1'
      simp only [Option.some.injEq, Tm.var.injEq] at h1'
      exact h1 ha hb h1'.symm

/-! ### Property C16 -/

/-- `r.same(o)` is true iff `o` is `r` up to a one-to-one renaming and a rearrangement of the subgoals.
`hash` is any function of the signature; the only assumption on it is that it does not confuse an empty
body with a non-empty one (`C16_collision` shows what happens otherwise). -/
theorem C16_same {cv fv : Nat → Nat} (hcv : Function.Injective cv) (hfv : Function.Injective fv)
    {hash : Tm × Multiset Tm → Nat} {f k : Nat} {is : Bool} {r o : Rule} (hr : r.Proper) (his : is = true → r = o)
    (hk : Alloc fv k r.tm)
    (hb : r.body = [] → hash (signature cv r) = hash (signature cv o) → o.body = []) {b}
    (e : same cv fv hash f k is r o = some b) : b = true ↔ RuleVariant r o := by
  unfold same at e
  split at e
  · rename_i hi
    cases e
    rw [← his hi]
    simp [RuleVariant.refl]
  · split at e
    · rename_i hh
      cases e
      simp only [Bool.false_eq_true, false_iff]
      exact fun h => hh (by rw [signature_variant hcv hr h])
    · rename_i hh
      rw [not_not] at hh
      simp only at e
      by_cases hd : Disjoint (vars r.tm) (vars o.tm)
      · rw [if_pos hd] at e
        split at e
        · cases e
        · split at e
          · cases e
          · rename_i h1 _ _ h2
            exact match_spec hd (fun h => hb h hh) h1 h2 e
      · rw [if_neg hd] at e
        have hv := fresh_variant hfv k o
        have hd' : Disjoint (vars r.tm) (vars (o.fresh fv k).tm) := by
          rw [fresh_tm]; exact freshV_apart hfv hk
        split at e
        · cases e
        · split at e
          · cases e
          · rename_i h1 _ _ h2
            rw [match_spec hd' (fun h => ?_) h1 h2 e]
            · exact ⟨fun h => h.trans hv.symm, fun h => h.trans hv⟩
            · obtain ⟨_, _, _, h3⟩ := hv
              rw [hb h hh] at h3
              simpa using h3

/-- `r.same(o)` terminates. -/
theorem C16_terminates {cv fv : Nat → Nat} (hfv : Function.Injective fv) (hash : Tm × Multiset Tm → Nat) {k : Nat}
    (is : Bool) {r : Rule} (o : Rule) (hk : Alloc fv k r.tm) :
    ∃ N, ∀ f ≥ N, same cv fv hash f k is r o ≠ none := by
  by_cases hi : is = true
  · exact ⟨0, fun f _ => by simp [same, hi]⟩
  by_cases hh : hash (signature cv r) = hash (signature cv o)
  swap
  · exact ⟨0, fun f _ => by simp [same, hi, hh]⟩
  have main : ∀ o : Rule, Disjoint (vars r.tm) (vars o.tm) → Evt fun f =>
      (match Subst.coverF f (fun _ => none) r.head o.head with
      | none => none
      | some s => match Product.matchF f o.body r.body (List.range o.body.length) s with
        | none => none
        | some ss => anyMatch f r o ss) ≠ none := by
    intro o hd
    obtain ⟨d1, d2, d3, d4⟩ := disj_head hd
    obtain ⟨s, h1, h2⟩ := cover_total r.head d1 _ o.head (sep_empty _) d3
    obtain ⟨ss, h3⟩ := matchF_total d4 r.body (List.range o.body.length) s d2 (by simp) (fun s' e => (h1.ok s' e).1)
    have h4 : ∀ S ∈ ss, Heap.Good S := by
      cases s with
      | none =>
        obtain ⟨f, hf⟩ := h3.exists'
        simp only [matchF, Option.some.injEq] at hf
        subst hf; simp
      | some s =>
        obtain ⟨f, hf⟩ := h3.exists'
        intro S hS
        obtain ⟨al, _, _, _, a4⟩ := (matchF_spec d4 r.body _ s ss d2 List.nodup_range (h1.ok s rfl).1 hf).1 S hS
        exact good_of_sep a4.sep
    refine ((h2.and h3).and (anyMatch_total (r := r) (o := o) ss h4)).mono fun f e => ?_
    simp only [e.1.1, e.1.2]
    exact e.2
  have hd : Disjoint (vars r.tm) (vars (if Disjoint (vars r.tm) (vars o.tm) then o else o.fresh fv k).tm) := by
    split
    · assumption
    · rw [fresh_tm]; exact freshV_apart hfv hk
  obtain ⟨N, hN⟩ := main _ hd
  refine ⟨N, fun f hf => ?_⟩
  have := hN f hf
  rw [same, if_neg hi, if_neg (not_not.2 hh)]
  exact this

/-- Rule equality is an equivalence: a rule equals itself, the answer does not depend on the order of the
arguments, and equality composes. -/
theorem C16_equivalence {cv fv : Nat → Nat} (hcv : Function.Injective cv) (hfv : Function.Injective fv)
    {hash : Tm × Multiset Tm → Nat} (hinj : Function.Injective hash) {f k : Nat} {r o p : Rule}
    (hr : r.Proper) (ho : o.Proper) (hkr : Alloc fv k r.tm) (hko : Alloc fv k o.tm) :
    (∀ b, same cv fv hash f k false r r = some b → b = true) ∧
    (∀ b b', same cv fv hash f k false r o = some b → same cv fv hash f k false o r = some b' → b = b') ∧
    (∀ b, same cv fv hash f k false r o = some true → same cv fv hash f k false o p = some true →
      same cv fv hash f k false r p = some b → b = true) := by
  have hb : ∀ {r o : Rule}, r.body = [] → hash (signature cv r) = hash (signature cv o) → o.body = [] := by
    intro r o h1 h2
    have := congrArg (fun s => Multiset.card s.2) (hinj h2)
    simp only [signature, h1, List.map_nil, Multiset.coe_nil, Multiset.card_zero, Multiset.coe_card, List.length_map] at this
    exact List.length_eq_zero_iff.1 this.symm
  refine ⟨fun b e => ?_, fun b b' e e' => ?_, fun b e1 e2 e => ?_⟩
  · exact (C16_same hcv hfv hr (by simp) hkr hb e).2 (.refl r)
  · rw [Bool.eq_iff_iff, C16_same hcv hfv hr (by simp) hkr hb e, C16_same hcv hfv ho (by simp) hko hb e']
    exact ⟨.symm, .symm⟩
  · exact (C16_same hcv hfv hr (by simp) hkr hb e).2
      (((C16_same hcv hfv hr (by simp) hkr hb e1).1 rfl).trans ((C16_same hcv hfv ho (by simp) hko hb e2).1 rfl))

/-- If the hash of an empty-bodied rule collides with that of a rule with a body, `same` answers true for
rules that are not equal: `_match_comm` yields as soon as its own subgoals are used up. -/
theorem C16_collision :
    let r : Rule := ⟨.app [.con (.str "f"), .var 0], []⟩
    let o : Rule := ⟨.app [.con (.str "f"), .var 1], [.con (.int 2)]⟩
    same (2 * ·) (2 * · + 1) (fun _ => 0) 10 1 false r o = some true ∧ ¬ RuleVariant r o := by
  refine ⟨by decide +kernel, ?_⟩
  rintro ⟨_, _, _, h⟩
  simp at h

/-- A rule whose subgoal is a bare variable is not equal to its own renamed copy (hash of the variable
itself): the restriction to term or constant subgoals is needed. -/
theorem C16_bare_variable :
    let r : Rule := ⟨.app [.con (.str "f"), .var 0], [.var 0]⟩
    let o : Rule := ⟨.app [.con (.str "f"), .var 1], [.var 1]⟩
    (∀ cv fv hash f k, Function.Injective hash → same cv fv hash f k false r o = some false) ∧ RuleVariant r o := by
  refine ⟨fun cv fv hash f k hi => ?_, fun n => n + 1, fun a _ b _ h => by simpa using h, by simp, by simp⟩
  have : hash (signature cv ⟨.app [.con (.str "f"), .var 0], [.var 0]⟩) ≠
      hash (signature cv ⟨.app [.con (.str "f"), .var 1], [.var 1]⟩) := by
    intro h
    have := congrArg Prod.snd (hi h)
    simp [signature, termSig] at this
  simp only [same, Bool.false_eq_true, if_false]
  rw [if_pos this]

section
private def ap (s : String) (l : List Tm) : Tm := .app (.con (.str s) :: l)
/-- `f(X) += g(X,Y) * h(Y)` and `f(X) += h(Z) * g(X,Z)` (sharing `X`) meet the hypotheses and are equal -/
example : let r : Rule := ⟨ap "f" [.var 1], [ap "g" [.var 1, .var 3], ap "h" [.var 3]]⟩
    let o : Rule := ⟨ap "f" [.var 1], [ap "h" [.var 5], ap "g" [.var 1, .var 5]]⟩
    same (2 * ·) (2 * · + 1) (fun _ => 0) 20 3 false r o = some true ∧ r.Proper ∧ Alloc (2 * · + 1) 3 r.tm ∧ RuleVariant r o := by
  refine ⟨by decide +kernel, ?_, ?_, fun n => if n = 3 then 5 else n, ?_, ?_, ?_⟩
  · intro x hx n; simp [ap] at hx; rcases hx with rfl | rfl | rfl <;> simp
  · intro n hn; simp [ap, tm] at hn; rcases hn with rfl | rfl
    · exact ⟨0, by omega, rfl⟩
    · exact ⟨1, by omega, rfl⟩
  · intro a ha b hb h
    simp [ap, tm] at ha hb
    rcases ha with rfl | rfl <;> rcases hb with rfl | rfl <;> simp at h ⊢
  · simp [ap]
  · simp only [ap, List.map_cons, sub_app, sub_con, sub_var, List.map_nil]
    exact List.Perm.swap _ _ _
end
end Rule

/-! ### Programs -/
namespace RuleOps
variable {R S : Type} [DecidableEq R] [DecidableEq S] {o : RuleOps R S}

/-- `same` is an equivalence and equal rules have equal signatures -/
structure Lawful (o : RuleOps R S) : Prop where
  refl : ∀ r, o.same r r = true
  symm : ∀ r s, o.same r s = true → o.same s r = true
  trans : ∀ r s t, o.same r s = true → o.same s t = true → o.same r t = true
  sig : ∀ r s, o.same r s = true → o.sig r = o.sig s

/-- a one-to-one correspondence between two rule lists that pairs related rules -/
def Corr (P : R → R → Prop) (p q : List R) : Prop := ∃ q', q'.Perm q ∧ List.Forall₂ P p q'

theorem Corr.perm_right {P : R → R → Prop} {p q q' : List R} (h : Corr P p q) (hp : q.Perm q') : Corr P p q' := by
  obtain ⟨l, h1, h2⟩ := h; exact ⟨l, h1.trans hp, h2⟩

theorem same_congr (ho : o.Lawful) {r s : R} (h : o.same r s = true) (x : R) : o.same x r = o.same x s := by
  rw [Bool.eq_iff_iff]
  exact ⟨fun h1 => ho.trans _ _ _ h1 h, fun h1 => ho.trans _ _ _ h1 (ho.symm _ _ h)⟩

theorem count_forall₂ (ho : o.Lawful) {p l : List R} (h : List.Forall₂ (fun r s => o.same r s = true) p l) (x : R) :
    p.countP (o.same x) = l.countP (o.same x) := by
  induction h with
  | nil => rfl
  | cons h1 _ ih => rw [List.countP_cons, List.countP_cons, ih, same_congr ho h1]

theorem count_erase {s : R} {q : List R} (hs : s ∈ q) (x : R) :
    q.countP (o.same x) = (q.erase s).countP (o.same x) + if o.same x s then 1 else 0 := by
  rw [(List.perm_cons_erase hs).countP_eq, List.countP_cons]

theorem checkBucket_iff (ho : o.Lawful) : ∀ p q : List R, o.checkBucket p q = true ↔
    ∀ x, p.countP (o.same x) ≤ q.countP (o.same x) := by
  intro p
  induction p with
  | nil => intro q; simp [checkBucket]
  | cons r p ih =>
    intro q
    simp only [checkBucket, firstSame]
    cases hf : q.find? (o.same r) with
    | none =>
      rw [List.find?_eq_none] at hf
      simp only [Bool.false_eq_true, false_iff, not_forall]
      refine ⟨r, ?_⟩
      have : q.countP (o.same r) = 0 := List.countP_eq_zero.2 hf
      rw [this, List.countP_cons, ho.refl]
      simp
    | some s =>
      have hs := List.mem_of_find?_eq_some hf
      have hrs := List.find?_some hf
      simp only
      rw [ih]
      refine forall_congr' fun x => ?_
      rw [List.countP_cons, count_erase hs x, same_congr ho hrs]
      omega

theorem sub_corr (ho : o.Lawful) : ∀ p q : List R, (∀ x, p.countP (o.same x) ≤ q.countP (o.same x)) →
    ∃ l e, (l ++ e).Perm q ∧ List.Forall₂ (fun r s => o.same r s = true) p l := by
  intro p
  induction p with
  | nil => intro q _; exact ⟨[], q, .refl _, .nil⟩
  | cons r p ih =>
    intro q h
    have h1 : 0 < q.countP (o.same r) := by
      have := h r
      rw [List.countP_cons, ho.refl] at this
      simp at this; omega
    obtain ⟨s, hs, hrs⟩ := List.countP_pos_iff.1 h1
    obtain ⟨l, e, h2, h3⟩ := ih (q.erase s) (fun x => by
      have := h x
      rw [List.countP_cons, count_erase hs x, same_congr ho hrs] at this
      omega)
    exact ⟨s :: l, e, (h2.cons s).trans (List.perm_cons_erase hs).symm, .cons hrs h3⟩

theorem corr_iff_count (ho : o.Lawful) {p q : List R} : Corr (fun r s => o.same r s = true) p q ↔
    p.length = q.length ∧ ∀ x, p.countP (o.same x) ≤ q.countP (o.same x) := by
  constructor
  · rintro ⟨l, h1, h2⟩
    exact ⟨by rw [h2.length_eq, h1.length_eq], fun x => by rw [count_forall₂ ho h2, h1.countP_eq]⟩
  · rintro ⟨h1, h2⟩
    obtain ⟨l, e, h3, h4⟩ := sub_corr ho p q h2
    have : e = [] := by
      have := h3.length_eq
      rw [List.length_append, ← h4.length_eq, h1] at this
      exact List.length_eq_zero_iff.1 (by omega)
    subst this
    rw [List.append_nil] at h3
    exact ⟨l, h3, h4⟩

theorem map_forall₂ {β : Type} {g : R → β} {P : R → R → Prop} (hg : ∀ r s, P r s → g r = g s) {p l : List R}
    (h : List.Forall₂ P p l) : p.map g = l.map g := by
  induction h with
  | nil => rfl
  | cons h5 _ ih => simp [ih, hg _ _ h5]

theorem rhash_same (ho : o.Lawful) {r s : R} (h : o.same r s = true) : o.rhash r = o.rhash s := by
  simp [rhash, ho.sig r s h]

theorem count_bucket (ho : o.Lawful) (p : List R) (x : R) (b : Nat) : (o.bucket p b).countP (o.same x) =
    if o.rhash x = b then p.countP (o.same x) else 0 := by
  rw [bucket, List.countP_filter]
  split
  · rename_i h
    refine List.countP_congr fun r _ => ?_
    simp only [Bool.and_eq_true, decide_eq_true_eq, and_iff_left_iff_imp]
    intro h1; rw [← h, rhash_same ho h1]
  · rename_i h
    refine List.countP_eq_zero.2 fun r _ => ?_
    simp only [Bool.and_eq_true, decide_eq_true_eq, not_and]
    intro h1 h2; exact h (by rw [← h2, rhash_same ho h1])

theorem bucketEqual_iff (ho : o.Lawful) {p q : List R} (hl : p.length = q.length) :
    o.bucketEqual p q = true ↔ Corr (fun r s => o.same r s = true) p q := by
  rw [corr_iff_count ho]
  simp only [bucketEqual, Bool.and_eq_true, decide_eq_true_eq, List.all_eq_true]
  constructor
  · rintro ⟨_, h2⟩
    refine ⟨hl, fun x => ?_⟩
    by_cases hx : o.rhash x ∈ p.map o.rhash
    · have := (checkBucket_iff ho _ _).1 (h2 _ hx) x
      rw [count_bucket ho, count_bucket ho, if_pos rfl, if_pos rfl] at this
      exact this
    · have : p.countP (o.same x) = 0 := List.countP_eq_zero.2 fun r hr h => hx (by
        rw [rhash_same ho h]; exact List.mem_map_of_mem hr)
      omega
  · rintro ⟨_, h2⟩
    refine ⟨?_, fun b _ => (checkBucket_iff ho _ _).2 fun x => ?_⟩
    · have hc : Corr (fun r s => o.same r s = true) p q := (corr_iff_count ho).2 ⟨hl, h2⟩
      obtain ⟨l, h3, h4⟩ := hc
      have : p.map o.rhash = l.map o.rhash := map_forall₂ (fun r s h => rhash_same ho h) h4
      rw [this]
      ext b
      simp [h3.mem_iff]
    · rw [count_bucket ho, count_bucket ho]
      split
      · exact h2 x
      · exact le_refl _

/-! ### Property C17 -/

/-- `p == q` iff the rules of `p` and of `q` are in a one-to-one correspondence that pairs equal rules;
`is` (object identity) may only hold when the programs are the same. -/
theorem C17_eq (ho : o.Lawful) {is : Bool} {p q : List R} (his : is = true → p = q) :
    o.progEq is p q = true ↔ ∃ q', q'.Perm q ∧ List.Forall₂ (fun r s => o.same r s = true) p q' := by
  have hsig : Corr (fun r s => o.same r s = true) p q → o.psig p = o.psig q := by
    rintro ⟨l, h1, h2⟩
    have : p.map o.sig = l.map o.sig := map_forall₂ ho.sig h2
    simp only [psig, this]
    exact Multiset.coe_eq_coe.2 (h1.map _)
  show _ ↔ Corr (fun r s => o.same r s = true) p q
  unfold progEq
  split
  · rename_i h
    simp only [true_iff]
    rw [← his h]
    refine ⟨p, .refl _, ?_⟩
    rw [List.forall₂_same]; exact fun r _ => ho.refl r
  · split
    · rename_i hl
      simp only [Bool.false_eq_true, false_iff]
      exact fun h => hl ((corr_iff_count ho).1 h).1
    · rename_i hl
      rw [not_not] at hl
      split
      · rename_i hs
        simp only [Bool.false_eq_true, false_iff]
        exact fun h => hs (by rw [hsig h])
      · split
        · rename_i hs
          simp only [Bool.false_eq_true, false_iff]
          exact fun h => hs (hsig h)
        · exact bucketEqual_iff ho hl

/-- the same for the comparison of symbolic rules inside `metric` -/
theorem C17_symbolic (ho : o.Lawful) {p q : List R} :
    o.symbolicEqual p q = true ↔ ∃ q', q'.Perm q ∧ List.Forall₂ (fun r s => o.same r s = true) p q' := by
  show _ ↔ Corr (fun r s => o.same r s = true) p q
  unfold symbolicEqual
  split
  · rename_i hl
    simp only [Bool.false_eq_true, false_iff]
    exact fun h => hl ((corr_iff_count ho).1 h).1
  · rename_i hl
    exact bucketEqual_iff ho (not_not.1 hl)

/-- program equality does not depend on the order of the rules of either program -/
theorem C17_order (ho : o.Lawful) {p p' q q' : List R} (hp : p.Perm p') (hq : q.Perm q') :
    o.progEq false p q = o.progEq false p' q' := by
  rw [Bool.eq_iff_iff, C17_eq ho (by simp), C17_eq ho (by simp)]
  show Corr (fun r s => o.same r s = true) p q ↔ Corr (fun r s => o.same r s = true) p' q'
  rw [corr_iff_count ho, corr_iff_count ho, hp.length_eq, hq.length_eq]
  simp only [hp.countP_eq, hq.countP_eq]

/-! ### Alignment -/

/-- the loop invariant of `align` after the first `i` rules of `p` -/
structure AInv (o : RuleOps R S) (p q : List R) (i : Nat) (a : AS) : Prop where
  nd : a.un.Nodup
  sb : ∀ b, a.Sb b = a.un.filter fun j => (q[j]?.map o.rhash) = some b
  fst : a.out.filterMap Prod.fst = List.range i
  snd : (a.out.filterMap Prod.snd ++ a.un).Perm (List.range q.length)
  left : ∀ e ∈ a.out, e.1 ≠ none
  pair : ∀ i j, (some i, some j) ∈ a.out → ∃ r s, p[i]? = some r ∧ q[j]? = some s ∧ o.same r s = true
  miss : ∀ i, (some i, none) ∈ a.out → ∀ j ∈ a.un, ∀ r s, p[i]? = some r → q[j]? = some s → o.same r s = false

theorem align_inv (ho : o.Lawful) {ord : List Nat → List Nat} (hord : ∀ l, (ord l).Perm l) {p q : List R} {i : Nat} {a : AS}
    (h : AInv o p q i a) {r : R} (hr : p[i]? = some r) : AInv o p q (i + 1) (o.alignStep ord q a (r, i)) := by
  simp only [alignStep]
  split
  · rename_i j hj
    have h1 := List.mem_of_find?_eq_some hj
    have h2 := List.find?_some hj
    rw [(hord _).mem_iff, h.sb, List.mem_filter] at h1
    obtain ⟨hju, hjh⟩ := h1
    cases hq : q[j]? with
    | none => rw [hq] at h2; simp at h2
    | some s =>
      simp only [hq] at h2
      refine ⟨h.nd.erase j, fun b => ?_, ?_, ?_, ?_, ?_, ?_⟩
      · simp only
        by_cases hb : b = o.rhash r
        · rw [if_pos hb, hb, h.sb, h.nd.erase_eq_filter, (h.nd.filter _).erase_eq_filter, List.filter_filter, List.filter_filter]
          exact List.filter_congr fun k _ => by rw [Bool.and_comm]
        · rw [if_neg hb, h.sb, h.nd.erase_eq_filter, List.filter_filter]
          refine List.filter_congr fun k _ => ?_
          by_cases hk : k = j
          · subst hk
            have hne : ¬ o.rhash s = b := by rw [← rhash_same ho h2]; exact fun e => hb e.symm
            simp [hq, hne]
          · simp [hk]
      · simp [h.fst, List.range_succ]
      · simp only [List.filterMap_append, List.filterMap_cons, List.filterMap_nil, List.append_assoc, List.singleton_append]
        refine List.Perm.trans ?_ h.snd
        exact List.Perm.append_left _ (List.perm_cons_erase hju).symm
      · intro e he
        rw [List.mem_append, List.mem_singleton] at he
        rcases he with he | rfl
        · exact h.left e he
        · simp
      · intro i' j' he
        rw [List.mem_append, List.mem_singleton] at he
        rcases he with he | he
        · exact h.pair i' j' he
        · simp only [Prod.mk.injEq, Option.some.injEq] at he
          obtain ⟨rfl, rfl⟩ := he
          exact ⟨r, s, hr, hq, h2⟩
      · intro i' he k hk
        rw [List.mem_append, List.mem_singleton] at he
        rcases he with he | he
        · exact h.miss i' he k (List.mem_of_mem_erase hk)
        · simp at he
  · rename_i hj
    rw [List.find?_eq_none] at hj
    refine ⟨h.nd, h.sb, ?_, ?_, ?_, ?_, ?_⟩
    · simp [h.fst, List.range_succ]
    · simpa using h.snd
    · intro e he
      rw [List.mem_append, List.mem_singleton] at he
      rcases he with he | rfl
      · exact h.left e he
      · simp
    · intro i' j' he
      rw [List.mem_append, List.mem_singleton] at he
      rcases he with he | he
      · exact h.pair i' j' he
      · simp at he
    · intro i' he j hju r' s hr' hs
      rw [List.mem_append, List.mem_singleton] at he
      rcases he with he | he
      · exact h.miss i' he j hju r' s hr' hs
      · simp only [Prod.mk.injEq, Option.some.injEq, and_true] at he
        subst he
        rw [hr] at hr'
        cases hr'
        by_contra hc
        rw [Bool.not_eq_false] at hc
        refine hj j ?_ (by simp [hs, hc])
        rw [(hord _).mem_iff, h.sb, List.mem_filter]
        exact ⟨hju, by simp [hs, rhash_same ho hc]⟩

theorem align_loop (ho : o.Lawful) {ord : List Nat → List Nat} (hord : ∀ l, (ord l).Perm l) {p q : List R} :
    ∀ (l : List R) (i : Nat) (a : AS), p.drop i = l → AInv o p q i a →
      AInv o p q (i + l.length) ((l.zipIdx i).foldl (o.alignStep ord q) a) := by
  intro l
  induction l with
  | nil => intro i a _ h; simpa using h
  | cons r l ih =>
    intro i a hd h
    have hr : p[i]? = some r := by
      have := congrArg (·[0]?) hd
      simpa using this
    have := ih (i + 1) _ (by rw [← List.tail_drop, hd]; rfl) (align_inv ho hord h hr)
    rw [List.zipIdx_cons, List.foldl_cons]
    simpa [Nat.add_assoc, Nat.add_comm 1] using this

/-- `p.align(q)` lists every rule of either program exactly once, pairs only equal rules, and never
leaves two equal rules unpaired - whatever the order in which sets are iterated. -/
theorem C17_align (ho : o.Lawful) {ord : List Nat → List Nat} (hord : ∀ l, (ord l).Perm l) (p q : List R) :
    let A := o.align ord p q
    A.filterMap Prod.fst = List.range p.length ∧ (A.filterMap Prod.snd).Perm (List.range q.length) ∧
    (none, none) ∉ A ∧
    (∀ i j, (some i, some j) ∈ A → ∃ r s, p[i]? = some r ∧ q[j]? = some s ∧ o.same r s = true) ∧
    (∀ i j, (some i, none) ∈ A → (none, some j) ∈ A → ∀ r s, p[i]? = some r → q[j]? = some s → o.same r s = false) := by
  simp only [align]
  have h0 : AInv o p q 0 ⟨fun b => (List.range q.length).filter (fun j => (q[j]?.map o.rhash) = some b), List.range q.length, []⟩ :=
    ⟨List.nodup_range, fun b => rfl, rfl, by simp, by simp, by simp, by simp⟩
  have h := align_loop ho hord p 0 _ (by simp) h0
  rw [Nat.zero_add] at h
  refine ⟨?_, ?_, ?_, fun i j hm => ?_, fun i j hm hj => ?_⟩
  · rw [List.filterMap_append, h.fst, List.filterMap_map]
    simp
  · rw [List.filterMap_append, List.filterMap_map]
    have : ∀ l : List Nat, l.filterMap (Prod.snd ∘ fun j : Nat => ((none : Option Nat), some j)) = l := fun l => List.filterMap_some
    rw [this]
    exact (List.Perm.append_left _ (hord _)).trans h.snd
  · intro hm
    rw [List.mem_append] at hm
    rcases hm with hm | hm
    · exact h.left _ hm rfl
    · simp at hm
  · rw [List.mem_append] at hm
    rcases hm with hm | hm
    · exact h.pair i j hm
    · simp at hm
  · rw [List.mem_append] at hm hj
    rcases hm with hm | hm
    · rcases hj with hj | hj
      · exact absurd rfl (h.left _ hj)
      · simp only [List.mem_map, Prod.mk.injEq, Option.some.injEq, true_and, exists_eq_right, (hord _).mem_iff] at hj
        exact h.miss i hm j hj
    · simp at hm

theorem countP_range_get {p : List R} (x : R) :
    (List.range p.length).countP (fun i => match p[i]? with | some r => o.same x r | none => false) = p.countP (o.same x) := by
  have : p.countP (o.same x) = ((List.range p.length).map (p[·]?)).countP (fun m => match m with | some r => o.same x r | none => false) := by
    have h : (List.range p.length).map (p[·]?) = p.map some := by
      refine List.ext_getElem? fun i => ?_
      by_cases hi : i < p.length <;> simp [hi]
    rw [h, List.countP_map]; rfl
  rw [this, List.countP_map]; rfl

theorem countP_filterMap' {α β : Type} (g : α → Option β) (P : β → Bool) (l : List α) :
    (l.filterMap g).countP P = l.countP (fun a => match g a with | some b => P b | none => false) := by
  induction l with
  | nil => rfl
  | cons a l ih => cases h : g a <;> simp [List.filterMap_cons, h, List.countP_cons, ih]

/-- For equal programs the alignment is a perfect matching: every rule has a partner. -/
theorem C17_align_perfect (ho : o.Lawful) {ord : List Nat → List Nat} (hord : ∀ l, (ord l).Perm l) {p q : List R}
    (he : o.progEq false p q = true) :
    ∀ e ∈ o.align ord p q, ∃ i j, e = (some i, some j) := by
  have hc : Corr (fun r s => o.same r s = true) p q := (C17_eq ho (by simp)).1 he
  obtain ⟨l, hl1, hl2⟩ := hc
  have hcnt : ∀ x, p.countP (o.same x) = q.countP (o.same x) := fun x => by
    rw [count_forall₂ ho hl2, hl1.countP_eq]
  obtain ⟨h1, h2, h3, h4, h5⟩ := C17_align ho hord p q
  let cl (l : List R) (x : R) (m : Option Nat) : Bool := match m with
    | some i => (match l[i]? with | some r => o.same x r | none => false)
    | none => false
  have c1 : ∀ x, (o.align ord p q).countP (fun e => cl p x e.1) = p.countP (o.same x) := by
    intro x
    rw [← countP_range_get (o := o) (p := p), ← h1, countP_filterMap']
    refine List.countP_congr fun e _ => ?_
    obtain ⟨a, b⟩ := e
    cases a <;> simp [cl]
  have c2 : ∀ x, (o.align ord p q).countP (fun e => cl q x e.2) = q.countP (o.same x) := by
    intro x
    rw [← countP_range_get (o := o) (p := q), ← h2.countP_eq, countP_filterMap']
    refine List.countP_congr fun e _ => ?_
    obtain ⟨a, b⟩ := e
    cases b <;> simp [cl]
  -- entries in the class of `x` on exactly one side
  have hmono : ∀ (x : R) (P Q : Option Nat × Option Nat → Bool), (o.align ord p q).countP P = (o.align ord p q).countP Q →
      (∃ e ∈ o.align ord p q, P e = true ∧ Q e = false) → ∃ e ∈ o.align ord p q, Q e = true ∧ P e = false := by
    intro x P Q heq hex
    by_contra hno
    push Not at hno
    have hQP : ∀ e ∈ o.align ord p q, Q e = true → P e = true := fun e he hq => by
      have := hno e he hq; simpa using this
    generalize o.align ord p q = A at heq hex hQP
    clear hno h1 h2 h3 h4 h5 c1 c2
    obtain ⟨e, he, hp, hq⟩ := hex
    obtain ⟨u, v, rfl⟩ := List.append_of_mem he
    rw [List.countP_append, List.countP_append, List.countP_cons, List.countP_cons] at heq
    have a1 : u.countP Q ≤ u.countP P := List.countP_mono_left fun e he => hQP e (by simp [he])
    have a2 : v.countP Q ≤ v.countP P := List.countP_mono_left fun e he => hQP e (by simp [he])
    simp [hp, hq] at heq
    omega
  have key : ∀ i j, (some i, some j) ∈ o.align ord p q → ∀ x, cl p x (some i) = cl q x (some j) := by
    intro i j hm x
    obtain ⟨r, s, e1, e2, e3⟩ := h4 i j hm
    simp [cl, e1, e2, same_congr ho e3]
  rintro ⟨a, b⟩ he
  cases a with
  | none =>
    cases b with
    | none => exact absurd he h3
    | some j =>
      exfalso
      have hj : j < q.length := List.mem_range.1 (h2.mem_iff.1 (List.mem_filterMap.2 ⟨_, he, rfl⟩))
      have hs : q[j]? = some q[j] := List.getElem?_eq_getElem hj
      obtain ⟨⟨a, b⟩, hm, m1, m2⟩ := hmono q[j] (fun e => cl q q[j] e.2) (fun e => cl p q[j] e.1)
        (by rw [c1, c2, hcnt]) ⟨_, he, by simp [cl, hs, ho.refl], by simp [cl]⟩
      cases a with
      | none => simp [cl] at m1
      | some i =>
        cases b with
        | some k => simp only at m1 m2; rw [key i k hm] at m1; rw [m1] at m2; cases m2
        | none =>
          simp only [cl] at m1
          cases hr : p[i]? with
          | none => simp [hr] at m1
          | some r =>
            simp only [hr] at m1
            have := h5 i j hm he r _ hr hs
            rw [ho.symm _ _ m1] at this; cases this
  | some i =>
    cases b with
    | some j => exact ⟨i, j, rfl⟩
    | none =>
      exfalso
      have hi : i < p.length := by
        have : i ∈ List.range p.length := by rw [← h1]; exact List.mem_filterMap.2 ⟨_, he, rfl⟩
        exact List.mem_range.1 this
      have hr : p[i]? = some p[i] := List.getElem?_eq_getElem hi
      obtain ⟨⟨a, b⟩, hm, m1, m2⟩ := hmono p[i] (fun e => cl p p[i] e.1) (fun e => cl q p[i] e.2)
        (by rw [c1, c2, hcnt]) ⟨_, he, by simp [cl, hr, ho.refl], by simp [cl]⟩
      cases b with
      | none => simp [cl] at m1
      | some j =>
        cases a with
        | some k => simp only at m1 m2; rw [← key k j hm] at m1; rw [m1] at m2; cases m2
        | none =>
          simp only [cl] at m1
          cases hs : q[j]? with
          | none => simp [hs] at m1
          | some s =>
            simp only [hs] at m1
            have := h5 i j he hm _ s hr hs
            rw [m1] at this; cases this

/-- The actual rules satisfy what the comparison of programs relies on: any decision procedure for
equality up to renaming and reordering (`C16_same`) is lawful with the signatures of rule.py. -/
theorem C17_rules {cv : Nat → Nat} (hcv : Function.Injective cv) (same : Rule → Rule → Bool) (hash phash)
    (hs : ∀ r s, same r s = true ↔ Rule.RuleVariant r s) :
    Lawful (R := {r : Rule // r.Proper}) ⟨fun r s => same r.1 s.1, fun r => r.1.signature cv, hash, phash⟩ :=
  ⟨fun r => (hs _ _).2 (.refl _), fun r s h => (hs _ _).2 ((hs _ _).1 h).symm,
    fun r s t h1 h2 => (hs _ _).2 (((hs _ _).1 h1).trans ((hs _ _).1 h2)),
    fun r s h => Rule.signature_variant hcv r.2 ((hs _ _).1 h)⟩

section
/-- rules as numbers, equal when congruent modulo 5, hashed (with collisions) by parity of the residue -/
private def ex : RuleOps Nat Nat := ⟨fun a b => a % 5 == b % 5, (· % 5), (· % 2), fun _ => 0⟩
example : ex.Lawful := ⟨by simp [ex], fun r s h => by simp [ex] at *; exact h.symm,
  fun r s t h1 h2 => by simp [ex] at *; omega, fun r s h => by simpa [ex] using h⟩
example : ex.progEq false [1, 3, 6, 7] [12, 8, 11, 16] = true := by decide +kernel
example : ex.align id [1, 3, 6, 7] [12, 8, 11, 16] = [(some 0, some 2), (some 1, some 1), (some 2, some 3), (some 3, some 0)] := by
  decide +kernel
example : ex.align id [1, 3, 4] [12, 11] = [(some 0, some 1), (some 1, none), (some 2, none), (none, some 0)] := by decide +kernel
end

end RuleOps
end Verif
