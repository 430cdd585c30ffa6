/-
Property C80: building a derivation with its subgoals in another order.
-/
import Verif.Reorder
import Verif.RuleEqThm
import Verif.PropagateThm
import Mathlib.Data.List.Permutation

set_option linter.unusedSectionVars false
set_option linter.unusedSimpArgs false

namespace Verif
open Tm Heap
open Propagate (toSub ext_toSub call_eq)

namespace Reorder

/-! ### Specification -/

/-- `head` with the children `ts`, in this order, is an instance of the rule -/
def Fits (R : Rule) (head : Tm) (ts : List Tm) : Prop := ∃ τ, R.head.sub τ = head ∧ R.body.map (sub τ) = ts

/-- all children can be assigned to the subgoals: subgoal number `i` gets child number `al[i]` -/
def Aligned (R : Rule) (ts : List Tm) (al : List Nat) : Prop :=
  al.Perm (List.range ts.length) ∧ ∃ τ, List.Forall₂ (fun x j => ts[j]? = some (x.sub τ)) R.body al

/-- the assignment is its own inverse -/
def Involution (al : List Nat) : Prop := ∀ i j : Nat, al[i]? = some j → al[j]? = some i

/-- the children in the order of an assignment -/
def pick {κ : Type} (kids : List κ) (al : List Nat) : List κ := al.filterMap fun j => kids[j]?

/-- no two subgoals of the rule have a common instance -/
def Apart (R : Rule) : Prop := ∀ (i j : Nat) (x y : Tm), R.body[i]? = some x → R.body[j]? = some y → i ≠ j → ∀ σ τ, x.sub σ ≠ y.sub τ

/-! ### Lists -/

theorem perm_range {al : List Nat} {n : Nat} (h1 : al.Nodup) (h2 : ∀ j ∈ al, j < n) (h3 : al.length = n) : al.Perm (List.range n) := by
  have hs : al.Subperm (List.range n) := List.Nodup.subperm h1 fun j hj => List.mem_range.2 (h2 j hj)
  exact hs.perm_of_length_le (by simp [h3])

theorem pick_eq {κ : Type} (kids : List κ) : ∀ al : List Nat, (∀ j ∈ al, j < kids.length) →
    allSome (al.map fun j => kids[j]?) = some (pick kids al)
  | [], _ => rfl
  | j :: al, h => by
    have ih := pick_eq kids al fun k hk => h k (List.mem_cons_of_mem _ hk)
    have hj := h j (by simp)
    rw [List.map_cons, List.getElem?_eq_getElem hj, allSome, ih]
    simp [pick, List.filterMap_cons, List.getElem?_eq_getElem hj]

theorem pick_map {κ : Type} (tm : κ → Tm) (kids : List κ) (al : List Nat) : (pick kids al).map tm = pick (kids.map tm) al := by
  simp [pick, List.map_filterMap]

theorem pick_range {κ : Type} (kids : List κ) : pick kids (List.range kids.length) = kids := by
  have h : allSome ((List.range kids.length).map fun j => kids[j]?) = some kids := by
    rw [allSome_eq_some]
    refine List.ext_getElem? fun i => ?_
    by_cases hi : i < kids.length
    · simp [hi]
    · simp [hi, Nat.le_of_not_lt hi]
  rw [pick_eq kids _ (by simp)] at h
  exact Option.some.inj h

theorem pick_perm {κ : Type} {kids : List κ} {al : List Nat} (h : al.Perm (List.range kids.length)) : (pick kids al).Perm kids := by
  have := h.filterMap fun j => kids[j]?
  rw [show (List.range kids.length).filterMap (fun j => kids[j]?) = kids from pick_range kids] at this
  exact this

theorem pick_get {κ : Type} {kids : List κ} {al : List Nat} (h : ∀ j ∈ al, j < kids.length) (i : Nat) :
    (pick kids al)[i]? = al[i]?.bind fun j => kids[j]? := by
  have e := pick_eq kids al h
  rw [allSome_eq_some] at e
  have := congrArg (fun l => l[i]?) e
  simp only [List.getElem?_map] at this
  cases ha : al[i]? with
  | none =>
    rw [ha] at this
    simp only [Option.map_none] at this
    cases hp : (pick kids al)[i]? with
    | none => rfl
    | some x => rw [hp] at this; simp at this
  | some j =>
    rw [ha] at this
    cases hp : (pick kids al)[i]? with
    | none => rw [hp] at this; simp at this
    | some x => rw [hp] at this; simp at this; simp [this]

/-- matching subgoals with the picked children -/
theorem forall_pick {ts : List Tm} {al : List Nat} {xs : List Tm} {τ : Nat → Tm} :
    List.Forall₂ (fun x j => ts[j]? = some (x.sub τ)) xs al ↔ (∀ j ∈ al, j < ts.length) ∧ xs.map (sub τ) = pick ts al := by
  induction xs generalizing al with
  | nil =>
    cases al with
    | nil => simp [pick]
    | cons j al =>
      simp only [List.map_nil]
      constructor
      · intro h; cases h
      · rintro ⟨h, e⟩
        rw [pick, List.filterMap_cons, List.getElem?_eq_getElem (h j (by simp))] at e
        cases e
  | cons x xs ih =>
    cases al with
    | nil =>
      constructor
      · intro h; cases h
      · rintro ⟨_, e⟩; simp [pick] at e
    | cons j al =>
      rw [List.forall₂_cons, ih]
      constructor
      · rintro ⟨h1, h2, h3⟩
        refine ⟨?_, ?_⟩
        · intro k hk
          rcases List.mem_cons.1 hk with rfl | hk
          · exact (List.getElem?_eq_some_iff.1 h1).1
          · exact h2 k hk
        · rw [pick, List.filterMap_cons, h1]
          simp only [List.map_cons, h3, pick]
      · rintro ⟨h1, h2⟩
        have hj := h1 j (by simp)
        rw [pick, List.filterMap_cons, List.getElem?_eq_getElem hj] at h2
        simp only [List.map_cons, List.cons.injEq] at h2
        exact ⟨by rw [List.getElem?_eq_getElem hj, h2.1], fun k hk => h1 k (List.mem_cons_of_mem _ hk), h2.2⟩

theorem order_get {t : Folded} {al : List Nat} {n : Nat} (h1 : ∀ j i, (j, i) ∈ t.align ↔ al[i]? = some j) (h2 : (t.align.map Prod.fst).Nodup)
    (h3 : al.Perm (List.range n)) : (order t).length = n ∧ ∀ a i : Nat, (order t)[a]? = some i ↔ al[i]? = some a := by
  set L := t.align.insertionSort fun a b => a.1 ≤ b.1 with hL
  have hp : L.Perm t.align := List.perm_insertionSort _ _
  have hfst : (L.map Prod.fst).Perm (List.range n) := by
    refine (hp.map Prod.fst).trans (((List.perm_ext_iff_of_nodup h2 (h3.nodup_iff.2 List.nodup_range)).2 fun j => ?_).trans h3)
    constructor
    · intro hj
      obtain ⟨⟨j', i⟩, hm, rfl⟩ := List.mem_map.1 hj
      exact List.mem_of_getElem? ((h1 _ _).1 hm)
    · intro hj
      obtain ⟨i, hi⟩ := List.getElem?_of_mem hj
      exact List.mem_map.2 ⟨(j, i), (h1 j i).2 hi, rfl⟩
  have hsorted : (L.map Prod.fst).Pairwise (· ≤ ·) := by
    rw [List.pairwise_map]
    haveI : Std.Total (fun a b : Nat × Nat => a.1 ≤ b.1) := ⟨fun a b => Nat.le_total _ _⟩
    haveI : IsTrans (Nat × Nat) (fun a b : Nat × Nat => a.1 ≤ b.1) := ⟨fun a b c h k => Nat.le_trans h k⟩
    exact List.pairwise_insertionSort (fun a b : Nat × Nat => a.1 ≤ b.1) t.align
  have heq : L.map Prod.fst = List.range n :=
    hfst.eq_of_pairwise (fun a b _ _ h k => Nat.le_antisymm h k) hsorted (List.pairwise_lt_range.imp fun h => Nat.le_of_lt h)
  have hlen : L.length = n := by have := congrArg List.length heq; simpa using this
  have hget : ∀ a i : Nat, L[a]? = some (a, i) ↔ (order t)[a]? = some i := by
    intro a i
    have ho : (order t)[a]? = L[a]?.map Prod.snd := by simp [order, hL]
    rw [ho]
    constructor
    · intro h; rw [h]; rfl
    · intro h
      rw [Option.map_eq_some_iff] at h
      obtain ⟨⟨a', i'⟩, h, rfl⟩ := h
      have h' := congrArg (fun l => l[a]?) heq
      have ha : a < n := by rw [← hlen]; exact (List.getElem?_eq_some_iff.1 h).1
      simp only [List.getElem?_map, h, Option.map_some, List.getElem?_range ha, Option.some.injEq] at h'
      rw [h, h']
  refine ⟨by simp [order, ← hL, hlen], fun a i => ?_⟩
  rw [← hget, ← h1, ← hp.mem_iff]
  constructor
  · exact List.mem_of_getElem?
  · intro h
    obtain ⟨k, hk⟩ := List.getElem?_of_mem h
    have h' := congrArg (fun l => l[k]?) heq
    have ha : k < n := by rw [← hlen]; exact (List.getElem?_eq_some_iff.1 hk).1
    simp only [List.getElem?_map, hk, Option.map_some, List.getElem?_range ha, Option.some.injEq] at h'
    rw [h', hk, ← h']

theorem order_perm {t : Folded} {al : List Nat} {n : Nat} (h1 : ∀ j i, (j, i) ∈ t.align ↔ al[i]? = some j) (h2 : (t.align.map Prod.fst).Nodup)
    (h3 : al.Perm (List.range n)) : (order t).Perm (List.range n) := by
  obtain ⟨hl, hg⟩ := order_get h1 h2 h3
  refine perm_range ?_ ?_ hl
  · rw [List.nodup_iff_injective_get]
    intro a b hab
    have e1 : (order t)[(a : Nat)]? = some ((order t).get a) := by simp
    have e2 : (order t)[(b : Nat)]? = some ((order t).get b) := by simp
    rw [hg] at e1 e2
    rw [hab, e2] at e1
    exact Fin.ext (Option.some.inj e1).symm
  · intro i hi
    obtain ⟨a, ha⟩ := List.getElem?_of_mem hi
    rw [hg] at ha
    have := (List.getElem?_eq_some_iff.1 ha).1
    rw [h3.length_eq, List.length_range] at this
    exact this

theorem order_involution {t : Folded} {al : List Nat} {n : Nat} (h1 : ∀ j i, (j, i) ∈ t.align ↔ al[i]? = some j) (h2 : (t.align.map Prod.fst).Nodup)
    (h3 : al.Perm (List.range n)) : order t = al ↔ Involution al := by
  obtain ⟨hl, hg⟩ := order_get h1 h2 h3
  constructor
  · intro e i j h
    rw [← hg, e]; exact h
  · intro h
    refine List.ext_getElem? fun a => Option.ext fun i => ?_
    rw [hg]
    exact ⟨h i a, h a i⟩

/-! ### Covering -/

theorem covers_fits {R : Rule} {head : Tm} {ts : List Tm} (hd : Disjoint (vars R.tm) (vars (Rule.mk head ts).tm)) {f : Nat} {b : Bool}
    (e : Subst.coversF f R.tm (Rule.mk head ts).tm = some b) : b = true ↔ Fits R head ts := by
  rw [(Subst.C06_covers hd).2 f b e]
  simp only [InstanceOf, Fits, Rule.tm, sub_app, List.map_cons, Tm.app.injEq, List.cons.injEq]

/-- the terms of a derivation -/
abbrev inst (head : Tm) (ts : List Tm) : Rule := ⟨head, ts⟩

theorem dis_body {R : Rule} {head : Tm} {ts : List Tm} (hd : Disjoint (vars R.tm) (vars (inst head ts).tm)) : Disjoint (varsL R.body) (varsL ts) := by
  rw [Finset.disjoint_left] at hd ⊢
  intro n h1 h2
  refine hd (a := n) ?_ ?_ <;> simp [Rule.tm, h1, h2]

theorem dis_perm {R : Rule} {head : Tm} {ts us : List Tm} (hd : Disjoint (vars R.tm) (vars (inst head ts).tm)) (h : ∀ t ∈ us, t ∈ ts) :
    Disjoint (vars R.tm) (vars (inst head us).tm) := by
  rw [Finset.disjoint_left] at hd ⊢
  intro n h1 h2
  refine hd h1 ?_
  simp only [Rule.tm, vars_app, varsL_cons, Finset.mem_union, mem_varsL] at h2 ⊢
  rcases h2 with h2 | ⟨t, ht, h2⟩
  · exact .inl h2
  · exact .inr ⟨t, h t ht, h2⟩

/-- what `foldOne` hands on -/
theorem foldOne_keeps {f : Nat} {r R : Rule} {c : Product.Res} {t : Folded} (h : foldOne f r R c = some (some t)) :
    t.align = c.A ∧ t.remaining = c.R := by
  unfold foldOne at h
  split at h
  · simp only [Option.some.injEq] at h
    split at h
    · simp only [Option.some.injEq] at h
      subst h
      exact ⟨rfl, rfl⟩
    · cases h
  · cases h

theorem addF_mem {t : Folded} : ∀ {ts l : List Folded}, t ∈ ts.foldl addF l → t ∈ l ∨ t ∈ ts
  | [], l, h => .inl h
  | u :: ts, l, h => by
    rw [List.foldl_cons] at h
    rcases addF_mem h with h | h
    · unfold addF at h
      split at h
      · exact .inl h
      · rcases List.mem_append.1 h with h | h
        · exact .inl h
        · rw [List.mem_singleton] at h; subst h; exact .inr (by simp)
    · exact .inr (List.mem_cons_of_mem _ h)

theorem foldsBy_mem {f : Nat} {ord : List Nat → List Nat} {r R : Rule} {l : List Folded} (h : foldsBy f ord r R = some l) {t : Folded} (ht : t ∈ l) :
    ∃ cs c, Product.covers f ord R.body r.body = some cs ∧ c ∈ cs ∧ foldOne f r R c = some (some t) := by
  unfold foldsBy at h
  split at h
  · cases h
  · rename_i cs hcs
    rw [Option.map_eq_some_iff] at h
    obtain ⟨ts, h, rfl⟩ := h
    rcases addF_mem ht with ht | ht
    · cases ht
    · obtain ⟨rs, h2, rfl⟩ := collect_spec h
      obtain ⟨rs', hrs, hr⟩ := List.mem_flatten.1 ht
      obtain ⟨n, hn, hrs⟩ := List.mem_iff_getElem.1 hrs
      have hlen := h2.length_eq
      have ej := List.Forall₂.get h2 (by omega : n < cs.length) hn
      simp only [List.get_eq_getElem, hrs] at ej
      rw [Option.map_eq_some_iff] at ej
      obtain ⟨o, ho, rfl⟩ := ej
      refine ⟨cs, cs[n], hcs, List.getElem_mem _, ?_⟩
      rw [ho]
      simpa using hr

/-- what a fold that leaves nothing is -/
theorem full {f : Nat} {ord : List Nat → List Nat} (hord : ∀ l, (ord l).Perm l) {R : Rule} {head : Tm} {ts : List Tm}
    (hd : Disjoint (vars R.tm) (vars (inst head ts).tm)) {l : List Folded} (h : foldsBy f ord (inst head ts) R = some l) {t : Folded} (ht : t ∈ l)
    (hr : t.remaining = []) : ∃ al, Aligned R ts al ∧ (∀ j i, (j, i) ∈ t.align ↔ al[i]? = some j) ∧ (t.align.map Prod.fst).Nodup := by
  obtain ⟨cs, c, hcs, hc, h1⟩ := foldsBy_mem h ht
  obtain ⟨e1, e2⟩ := foldOne_keeps h1
  obtain ⟨a1, a2, -, a4, -⟩ := Product.C15_result hord (dis_body hd) hcs hc
  obtain ⟨-, b2⟩ := Product.C15_exact hord (dis_body hd) hcs
  obtain ⟨b1, b2, τ, b3⟩ := (b2 c.al).1 (List.mem_map_of_mem hc)
  refine ⟨c.al, ⟨?_, τ, b3⟩, e1 ▸ a1, e1 ▸ a2⟩
  refine (List.perm_ext_iff_of_nodup b1 List.nodup_range).2 fun j => ?_
  rw [List.mem_range]
  refine ⟨b2 j, fun hj => ?_⟩
  by_contra hn
  have := (a4 j).2 ⟨hj, hn⟩
  rw [← e2, hr] at this
  cases this

variable {κ : Type}

/-- **C80 (soundness).**  Whatever the rule, the item and the children, if the derivation can be built, its children are those given, in some order,
and in the new order they are an instance of the rule. -/
theorem C80_sound {f : Nat} {ord : List Nat → List Nat} (hord : ∀ l, (ord l).Perm l) {R : Rule} {head : Tm} {tm : κ → Tm} {kids ks : List κ}
    (hd : Disjoint (vars R.tm) (vars (inst head (kids.map tm)).tm)) (h : construct f ord R head tm kids = some (some ks)) :
    ks.Perm kids ∧ Fits R head (ks.map tm) := by
  unfold construct at h
  simp only at h
  split at h
  · cases h
  · rename_i e
    simp only [Option.some.injEq] at h
    subst h
    exact ⟨List.Perm.refl _, (covers_fits hd e).1 rfl⟩
  · unfold reorder at h
    split at h
    · cases h
    · rename_i t hf
      split at h
      · cases h
      · rename_i hr
        rw [ne_eq, not_not] at hr
        obtain ⟨al, ⟨p1, -⟩, p2, p3⟩ := full hord hd hf (List.mem_singleton.2 rfl) hr
        have po := order_perm p2 p3 p1
        rw [List.length_map] at po
        have hlt : ∀ j ∈ order t, j < kids.length := fun j hj => List.mem_range.1 (po.mem_iff.1 hj)
        rw [pick_eq kids _ hlt, pick_eq _ _ (by simpa using hlt)] at h
        simp only at h
        split at h
        · cases h
        · rename_i e
          simp only [Option.some.injEq] at h
          subst h
          refine ⟨pick_perm po, ?_⟩
          rw [pick_map]
          exact (covers_fits (dis_perm hd fun t ht => by
            rw [pick, List.mem_filterMap] at ht
            obtain ⟨j, -, hj⟩ := ht
            exact List.mem_of_getElem? hj) e).1 rfl
        · cases h
    · cases h

/-- **C80 (order kept).**  Children that already fit the rule stay in their order. -/
theorem C80_kept {f : Nat} {ord : List Nat → List Nat} {R : Rule} {head : Tm} {tm : κ → Tm} {kids : List κ}
    (hd : Disjoint (vars R.tm) (vars (inst head (kids.map tm)).tm)) (hf : Fits R head (kids.map tm)) {res : Option (List κ)}
    (h : construct f ord R head tm kids = some res) : res = some kids := by
  unfold construct at h
  simp only at h
  split at h
  · cases h
  · simpa using h.symm
  · rename_i e
    exact absurd ((covers_fits hd e).2 hf) (by simp)

theorem vars_sub_of {σ : Nat → Tm} {m n : Nat} (hn : n ∈ vars (σ m)) : ∀ t : Tm, m ∈ vars t → n ∈ vars (t.sub σ) := by
  intro t
  induction t using ind with
  | hv k => intro h; rw [vars_var, Finset.mem_singleton] at h; subst h; simpa using hn
  | hc c => intro h; simp at h
  | ha as ih =>
    intro h
    simp only [vars_app, mem_varsL, sub_app] at h ⊢
    obtain ⟨t, ht, h⟩ := h
    exact ⟨_, List.mem_map_of_mem ht, ih t ht h⟩

/-- for ground children `foldOne` rejects nothing -/
theorem foldOne_ground {f : Nat} {ord : List Nat → List Nat} (hord : ∀ l, (ord l).Perm l) {R : Rule} {head : Tm} {ts : List Tm}
    (hg : ∀ t ∈ ts, vars t = ∅) {cs : List Product.Res} (hcs : Product.covers f ord R.body ts = some cs) {c : Product.Res}
    (hc : c ∈ cs) {o : Option Folded} (h : foldOne f (inst head ts) R c = some o) :
    ∃ t, o = some t ∧ t.align = c.A ∧ t.remaining = c.R ∧
      (vars R.head ⊆ varsL R.body → t.subgoal = R.head.sub (toSub c.S)) := by
  have hts : varsL ts = ∅ := by
    rw [Finset.eq_empty_iff_forall_notMem]
    intro n hn
    obtain ⟨t, ht, hn⟩ := (mem_varsL).1 hn
    rw [hg t ht] at hn
    cases hn
  have hd : Disjoint (varsL R.body) (varsL ts) := by rw [hts]; exact Finset.disjoint_empty_right _
  obtain ⟨-, -, h3⟩ := Product.covers_spec hord (Product.disj_list hd) R.body 0 _ _ cs (fun n hn => hn) List.nodup_range (Product.sep_empty _) hcs
  have hok := h3 c hc
  have hm : List.Forall₂ (fun x j => ts[j]? = some (x.sub (toSub c.S))) R.body c.al := ((hok.ext _).1 (ext_toSub c.S)).2
  have hbody := (forall_pick.1 hm)
  unfold foldOne at h
  split at h
  · rename_i hd' body rest e1 e2 e3
    simp only [Option.some.injEq] at h
    have h1 := call_eq hok.sep e1
    have h2 : body = R.body.map (sub (toSub c.S)) := by
      rw [allSome_eq_some] at e2
      refine List.ext_getElem? fun i => ?_
      have := congrArg (fun l => l[i]?) e2
      simp only [List.getElem?_map] at this ⊢
      cases hb : R.body[i]? with
      | none =>
        rw [hb] at this
        cases hb' : body[i]? with
        | none => rfl
        | some y => rw [hb'] at this; simp at this
      | some x =>
        rw [hb] at this
        cases hb' : body[i]? with
        | none => rw [hb'] at this; simp at this
        | some y =>
          rw [hb'] at this
          simp only [Option.map_some, Option.some.injEq] at this ⊢
          exact call_eq hok.sep this
    have hvb : varsL body = ∅ := by
      rw [Finset.eq_empty_iff_forall_notMem]
      intro n hn
      obtain ⟨t, ht, hn⟩ := (mem_varsL).1 hn
      rw [h2, hbody.2, pick, List.mem_filterMap] at ht
      obtain ⟨j, -, hj⟩ := ht
      rw [hg t (List.mem_of_getElem? hj)] at hn
      cases hn
    rw [if_pos (by rw [hvb]; simp)] at h
    refine ⟨_, h.symm, rfl, rfl, fun hv => ?_⟩
    have hvh : vars hd' = ∅ := by
      rw [Finset.eq_empty_iff_forall_notMem]
      intro n hn
      rw [h1] at hn
      obtain ⟨x, hx, hn⟩ := Propagate.mem_vars_sub hn
      have : n ∈ varsL body := by
        obtain ⟨t, ht, hxt⟩ := (mem_varsL).1 (hv hx)
        rw [h2]
        exact (mem_varsL).2 ⟨_, List.mem_map_of_mem ht, vars_sub_of hn t hxt⟩
      rw [hvb] at this
      cases this
    show hd'.sub _ = _
    rw [← h1]
    conv_rhs => rw [← sub_id hd']
    exact sub_congr fun n hn => by rw [hvh] at hn; cases hn
  · cases h

theorem Aligned.length {R : Rule} {ts : List Tm} {al : List Nat} (h : Aligned R ts al) : R.body.length = ts.length := by
  obtain ⟨h1, τ, h2⟩ := h
  rw [h2.length_eq, h1.length_eq, List.length_range]

/-- **C80 (one assignment).**  Let the children be ground, and let there be exactly one way to assign them to the subgoals of the rule, and the item
fit it.  If that assignment is its own inverse, the children are put in the order of the rule; otherwise an exception
is raised, though an order that fits exists. -/
theorem C80_unique {f : Nat} {ord : List Nat → List Nat} (hord : ∀ l, (ord l).Perm l) {R : Rule} {head : Tm} {tm : κ → Tm} {kids : List κ}
    (hd : Disjoint (vars R.tm) (vars (inst head (kids.map tm)).tm)) (hg : ∀ k ∈ kids, vars (tm k) = ∅) {al : List Nat}
    (ha : Aligned R (kids.map tm) al) (hu : ∀ al', Aligned R (kids.map tm) al' → al' = al) (hh : Fits R head ((pick kids al).map tm))
    {res : Option (List κ)} (h : construct f ord R head tm kids = some res) :
    (Involution al → res = some (pick kids al)) ∧ (¬ Involution al → res = none) := by
  have hgt : ∀ t ∈ kids.map tm, vars t = ∅ := by
    intro t ht
    obtain ⟨k, hk, rfl⟩ := List.mem_map.1 ht
    exact hg k hk
  unfold construct at h
  simp only at h
  split at h
  · cases h
  · rename_i e
    simp only [Option.some.injEq] at h
    subst h
    have hf := (covers_fits hd e).1 rfl
    obtain ⟨τ, -, hτ⟩ := hf
    have : Aligned R (kids.map tm) (List.range (kids.map tm).length) :=
      ⟨List.Perm.refl _, τ, forall_pick.2 ⟨by simp, by rw [pick_range, hτ]⟩⟩
    have e2 := hu _ this
    have hi : Involution al := by
      rw [← e2]
      intro i j hij
      rw [List.getElem?_eq_some_iff] at hij
      obtain ⟨hi, hij⟩ := hij
      rw [List.getElem_range] at hij
      subst hij
      exact List.getElem?_range (by simpa using hi)
    refine ⟨fun _ => ?_, fun hn => absurd hi hn⟩
    rw [← e2, List.length_map, pick_range]
  · unfold reorder at h
    have hone : ∀ l, foldsBy f ord (inst head (kids.map tm)) R = some l → ∃ t, l = [t] ∧ t.remaining = [] ∧
        (∀ j i, (j, i) ∈ t.align ↔ al[i]? = some j) ∧ (t.align.map Prod.fst).Nodup := by
      intro l hl
      unfold foldsBy at hl
      split at hl
      · cases hl
      · rename_i cs hcs
        obtain ⟨c1, c2⟩ := Product.C15_exact hord (dis_body hd) hcs
        have hal : ∀ al', al' ∈ cs.map Product.Res.al ↔ al' = al := by
          intro al'
          rw [c2]
          constructor
          · rintro ⟨n1, n2, τ, n3⟩
            exact hu _ ⟨perm_range n1 n2 (by rw [← n3.length_eq, ha.length]), τ, n3⟩
          · rintro rfl
            exact ⟨ha.1.nodup_iff.2 List.nodup_range, fun j hj => List.mem_range.1 (ha.1.mem_iff.1 hj), ha.2⟩
        obtain ⟨c, rfl⟩ : ∃ c, cs = [c] := by
          cases cs with
          | nil => exact absurd ((hal al).2 rfl) (by simp)
          | cons c cs =>
            cases cs with
            | nil => exact ⟨c, rfl⟩
            | cons d cs =>
              have e1 := (hal c.al).1 (by simp)
              have e2 := (hal d.al).1 (by simp)
              rw [List.map_cons, List.map_cons, List.nodup_cons] at c1
              exact absurd (by rw [e1, e2]; simp) c1.1
        have ec : c.al = al := (hal c.al).1 (by simp)
        obtain ⟨r1, r2, -, r4, -⟩ := Product.C15_result hord (dis_body hd) hcs (List.mem_singleton.2 rfl)
        rw [Option.map_eq_some_iff] at hl
        obtain ⟨ts, hts, rfl⟩ := hl
        simp only [collect] at hts
        split at hts
        · cases hts
        · rename_i x hx
          simp only [List.append_nil, Option.some.injEq] at hts
          subst hts
          rw [Option.map_eq_some_iff] at hx
          obtain ⟨o, ho, rfl⟩ := hx
          obtain ⟨t, rfl, t1, t2, -⟩ := foldOne_ground hord hgt hcs (List.mem_singleton.2 rfl) ho
          refine ⟨t, by simp [addF], ?_, ?_, t1 ▸ r2⟩
          · rw [t2, List.eq_nil_iff_forall_not_mem]
            intro j hj
            obtain ⟨q1, q2⟩ := (r4 j).1 hj
            exact q2 (by rw [ec, ha.1.mem_iff]; exact List.mem_range.2 q1)
          · intro j i
            rw [t1, r1, ec]
    split at h
    · cases h
    · rename_i t hf
      obtain ⟨t', e, hr, p2, p3⟩ := hone _ hf
      simp only [List.cons.injEq, and_true] at e
      subst e
      rw [if_neg (by simp [hr])] at h
      have p1 := ha.1
      have po := order_perm p2 p3 p1
      have hinv := order_involution p2 p3 p1
      rw [List.length_map] at po
      have hlt : ∀ j ∈ order t, j < kids.length := fun j hj => List.mem_range.1 (po.mem_iff.1 hj)
      rw [pick_eq kids _ hlt, pick_eq _ _ (by simpa using hlt)] at h
      simp only at h
      have hd' : Disjoint (vars R.tm) (vars (inst head (pick (kids.map tm) (order t))).tm) := dis_perm hd fun t ht => by
            rw [pick, List.mem_filterMap] at ht
            obtain ⟨j, -, hj⟩ := ht
            exact List.mem_of_getElem? hj
      split at h
      · cases h
      · rename_i e
        obtain ⟨τ, -, hτ⟩ := (covers_fits hd' e).1 rfl
        have : order t = al := hu _ ⟨by simpa using po, τ, forall_pick.2 ⟨by simpa using hlt, hτ⟩⟩
        simp only [Option.some.injEq] at h
        subst h
        exact ⟨fun _ => by rw [this], fun hn => absurd (hinv.1 this) hn⟩
      · rename_i e
        simp only [Option.some.injEq] at h
        subst h
        refine ⟨fun hi => ?_, fun _ => rfl⟩
        rw [← hinv.2 hi, pick_map] at hh
        exact absurd ((covers_fits hd' e).2 hh) (by simp)
    · rename_i l hne hf
      obtain ⟨t', e, -⟩ := hone _ hf
      subst e; exact absurd rfl (hne t')

/-- **C80 (subgoals without common instances).**  Let no two subgoals of the rule have a common instance.  Given ground children in any order,
a derivation is built from them just if the permutation that puts them in the order of the rule is its own inverse. -/
theorem C80_apart {f : Nat} {ord : List Nat → List Nat} (hord : ∀ l, (ord l).Perm l) {R : Rule} (hR : Apart R) {head : Tm} {tm : κ → Tm} {kids : List κ}
    (hd : Disjoint (vars R.tm) (vars (inst head (kids.map tm)).tm)) (hg : ∀ k ∈ kids, vars (tm k) = ∅) {al : List Nat}
    (ha : al.Perm (List.range kids.length)) (hh : Fits R head ((pick kids al).map tm))
    {res : Option (List κ)} (h : construct f ord R head tm kids = some res) :
    (Involution al → res = some (pick kids al)) ∧ (¬ Involution al → res = none) := by
  obtain ⟨τ, h1, h2⟩ := id hh
  have hlt : ∀ j ∈ al, j < (kids.map tm).length := fun j hj => by simpa using ha.mem_iff.1 hj
  rw [pick_map] at h2
  have hm := forall_pick.2 ⟨hlt, h2⟩
  refine C80_unique hord hd hg ⟨by simpa using ha, τ, hm⟩ ?_ hh h
  rintro al' ⟨p1, τ', p2⟩
  have hlen : al'.length = al.length := by rw [← p2.length_eq, hm.length_eq]
  refine List.ext_getElem hlen fun i h3 h4 => ?_
  have hib : i < R.body.length := by rw [hm.length_eq]; exact h4
  have e1 := List.Forall₂.get p2 hib h3
  simp only [List.get_eq_getElem] at e1
  have hmem : al'[i] ∈ al := by
    rw [ha.mem_iff]
    have := p1.mem_iff.1 (List.getElem_mem h3)
    simpa using this
  obtain ⟨k, hk, ek⟩ := List.mem_iff_getElem.1 hmem
  have hkb : k < R.body.length := by rw [hm.length_eq]; exact hk
  have e2 := List.Forall₂.get hm hkb hk
  simp only [List.get_eq_getElem] at e2
  rw [ek, e1, Option.some.injEq] at e2
  by_cases hik : i = k
  · subst hik; exact ek.symm
  · exact absurd e2 (hR i k _ _ (List.getElem?_eq_getElem hib) (List.getElem?_eq_getElem hkb) hik τ' τ)

/-- **C80 (rotated children).**  For every rule of three or more subgoals no two of which have a common instance, and every ground instance of it: if the
first child is moved to the end, no derivation is built. -/
theorem C80_rotated {f : Nat} {ord : List Nat → List Nat} (hord : ∀ l, (ord l).Perm l) {R : Rule} (hR : Apart R) {head : Tm} {tm : κ → Tm} {k : κ} {ks : List κ}
    (hd : Disjoint (vars R.tm) (vars (inst head ((k :: ks).map tm)).tm)) (hg : ∀ c ∈ k :: ks, vars (tm c) = ∅) (h3 : 3 ≤ R.body.length)
    (hh : Fits R head ((k :: ks).map tm)) {res : Option (List κ)} (h : construct f ord R head tm (ks ++ [k]) = some res) : res = none := by
  have hp : pick (ks ++ [k]) (ks.length :: List.range ks.length) = k :: ks := by
    have h0 : ∀ j ∈ ks.length :: List.range ks.length, j < (ks ++ [k]).length := by
      intro j hj
      rw [List.length_append, List.length_singleton]
      rcases List.mem_cons.1 hj with rfl | hj
      · omega
      · have := List.mem_range.1 hj; omega
    refine List.ext_getElem? fun i => ?_
    rw [pick_get h0]
    cases i with
    | zero => simp
    | succ i =>
      rw [List.getElem?_cons_succ, List.getElem?_cons_succ]
      by_cases hi : i < ks.length
      · rw [List.getElem?_range hi, Option.bind_some, List.getElem?_append_left hi]
      · rw [List.getElem?_eq_none (by simpa using hi), List.getElem?_eq_none (by simpa using hi)]; rfl
  have hperm : (ks.length :: List.range ks.length).Perm (List.range (ks ++ [k]).length) := by
    rw [List.length_append, List.length_singleton, List.range_succ]
    exact (List.perm_append_singleton _ _).symm
  refine (C80_apart hord hR (dis_perm hd fun t ht => ?_) (fun c hc => hg c ?_) hperm (by rw [hp]; exact hh) h).2 fun hi => ?_
  · simp only [List.map_append, List.map_cons, List.map_nil, List.mem_append, List.mem_singleton] at ht
    rcases ht with ht | rfl
    · exact List.mem_cons_of_mem _ ht
    · exact List.mem_cons_self
  · rcases List.mem_append.1 hc with hc | hc
    · exact List.mem_cons_of_mem _ hc
    · rw [List.mem_singleton] at hc; subst hc; exact List.mem_cons_self
  · obtain ⟨τ, -, h2⟩ := hh
    have hl : R.body.length = ks.length + 1 := by have := congrArg List.length h2; simpa using this
    have := hi 0 ks.length rfl
    obtain ⟨n, hn⟩ : ∃ n, ks.length = n + 2 := ⟨ks.length - 2, by omega⟩
    rw [hn, List.getElem?_cons_succ, List.getElem?_range (by omega)] at this
    simp at this

theorem addF_rep {t : Folded} : ∀ {ts l : List Folded}, t ∈ l ∨ t ∈ ts → ∃ u ∈ ts.foldl addF l, u.subgoal = t.subgoal
  | [], l, h => ⟨t, by simpa using h, rfl⟩
  | v :: ts, l, h => by
    rw [List.foldl_cons]
    by_cases hv : l.any (fun u => decide (u.subgoal = v.subgoal) && decide (u.rest = v.rest)) = true
    · have e : addF l v = l := if_pos hv
      rw [e]
      rcases h with h | h
      · exact addF_rep (.inl h)
      · rcases List.mem_cons.1 h with rfl | h
        · obtain ⟨u, hu, hu'⟩ := List.any_eq_true.1 hv
          simp only [Bool.and_eq_true, decide_eq_true_eq] at hu'
          obtain ⟨w, hw, ew⟩ := addF_rep (t := u) (ts := ts) (.inl hu)
          exact ⟨w, hw, ew.trans hu'.1⟩
        · exact addF_rep (.inr h)
    · have e : addF l v = l ++ [v] := if_neg hv
      rw [e]
      refine addF_rep ?_
      rcases h with h | h
      · exact .inl (List.mem_append_left _ h)
      · rcases List.mem_cons.1 h with rfl | h
        · exact .inl (by simp)
        · exact .inr h

/-- **C80 (several assignments).**  If ground children, not in the order of the rule, can be assigned to the subgoals in two ways with different items,
no derivation is built, even if only one of them fits the given item. -/
theorem C80_ambiguous {f : Nat} {ord : List Nat → List Nat} (hord : ∀ l, (ord l).Perm l) {R : Rule} (hR : vars R.head ⊆ varsL R.body)
    {head : Tm} {tm : κ → Tm} {kids : List κ}
    (hd : Disjoint (vars R.tm) (vars (inst head (kids.map tm)).tm)) (hg : ∀ k ∈ kids, vars (tm k) = ∅) (hn : ¬ Fits R head (kids.map tm))
    {x y : Tm} (hx : ∃ us, us.Perm (kids.map tm) ∧ Fits R x us) (hy : ∃ us, us.Perm (kids.map tm) ∧ Fits R y us) (hxy : x ≠ y)
    {res : Option (List κ)} (h : construct f ord R head tm kids = some res) : res = none := by
  have hgt : ∀ t ∈ kids.map tm, vars t = ∅ := by
    intro t ht
    obtain ⟨k, hk, rfl⟩ := List.mem_map.1 ht
    exact hg k hk
  unfold construct at h
  simp only at h
  split at h
  · cases h
  · rename_i e
    exact absurd ((covers_fits hd e).1 rfl) hn
  · unfold reorder at h
    have hrep : ∀ l, foldsBy f ord (inst head (kids.map tm)) R = some l → ∀ z, (∃ us, us.Perm (kids.map tm) ∧ Fits R z us) →
        ∃ t ∈ l, t.subgoal = z := by
      rintro l hl z ⟨us, hus, τ, hz, hb⟩
      unfold foldsBy at hl
      split at hl
      · cases hl
      · rename_i cs hcs
        obtain ⟨-, c2⟩ := Product.C15_exact hord (dis_body hd) hcs
        -- the assignment
        obtain ⟨al, hal, rfl⟩ : ∃ al : List Nat, al.Perm (List.range (kids.map tm).length) ∧ us = pick (kids.map tm) al := by
          clear hb c2 hcs hgt hl
          generalize kids.map tm = ts at hus
          have h1 : ∀ j ∈ List.range ts.length, j < ts.length := fun j hj => List.mem_range.1 hj
          have : ∀ (vs us : List Tm), us.Perm vs → ∀ l : List Nat, l.map (fun j => ts[j]?) = vs.map some →
              ∃ al : List Nat, al.Perm l ∧ al.map (fun j => ts[j]?) = us.map some := by
            intro vs us hp
            induction hp with
            | nil => intro l h; exact ⟨l, List.Perm.refl _, h⟩
            | @cons x l1 l2 _ ih =>
              intro l h
              cases l with
              | nil => cases h
              | cons j l =>
                simp only [List.map_cons, List.cons.injEq] at h
                obtain ⟨al, a1, a2⟩ := ih l h.2
                exact ⟨j :: al, a1.cons j, by simp [h.1, a2]⟩
            | swap x y l2 =>
              intro l h
              match l, h with
              | [], h => simp at h
              | [_], h => simp at h
              | i :: j :: l, h =>
                simp only [List.map_cons, List.cons.injEq] at h
                exact ⟨j :: i :: l, List.Perm.swap _ _ _, by simp [h.1, h.2.1, h.2.2]⟩
            | trans _ _ ih1 ih2 =>
              intro l h
              obtain ⟨al, a1, a2⟩ := ih2 l h
              obtain ⟨bl, b1, b2⟩ := ih1 al a2
              exact ⟨bl, b1.trans a1, b2⟩
          obtain ⟨al, a1, a2⟩ := this ts us hus (List.range ts.length) (by
            rw [← allSome_eq_some, pick_eq ts _ h1, pick_range])
          refine ⟨al, a1, ?_⟩
          rw [← allSome_eq_some, pick_eq ts al fun j hj => h1 j (a1.mem_iff.1 hj)] at a2
          exact (Option.some.inj a2).symm
        have hlt : ∀ j ∈ al, j < (kids.map tm).length := fun j hj => List.mem_range.1 (hal.mem_iff.1 hj)
        have hm := forall_pick.2 ⟨hlt, hb⟩
        obtain ⟨c, hc, rfl⟩ := List.mem_map.1 ((c2 al).2 ⟨hal.nodup_iff.2 List.nodup_range, hlt, τ, hm⟩)
        obtain ⟨-, -, -, -, r5, -, r7⟩ := Product.C15_result hord (dis_body hd) hcs hc
        rw [Option.map_eq_some_iff] at hl
        obtain ⟨ts, hts, rfl⟩ := hl
        obtain ⟨rss, h2, rfl⟩ := collect_spec hts
        obtain ⟨n, hn', ec⟩ := List.mem_iff_getElem.1 hc
        have hlen := h2.length_eq
        have ej := List.Forall₂.get h2 hn' (by omega : n < rss.length)
        simp only [List.get_eq_getElem, ec] at ej
        rw [Option.map_eq_some_iff] at ej
        obtain ⟨o, ho, ej⟩ := ej
        obtain ⟨t, rfl, -, -, t3⟩ := foldOne_ground hord hgt hcs hc ho
        obtain ⟨u, hu, eu⟩ := addF_rep (t := t) (ts := rss.flatten) (l := []) (.inr (List.mem_flatten.2 ⟨_, List.getElem_mem (by omega : n < rss.length), by
          rw [← ej]; simp⟩))
        refine ⟨u, hu, ?_⟩
        rw [eu, t3 hR, ← hz]
        refine sub_congr fun m hm' => ?_
        obtain ⟨w, hw⟩ := Option.ne_none_iff_exists'.1 ((r5 m).2 (hR hm'))
        rw [r7 τ hm m w hw, toSub, hw]; rfl
    split at h
    · cases h
    · rename_i t hf
      obtain ⟨t1, h1, e1⟩ := hrep _ hf x hx
      obtain ⟨t2, h2, e2⟩ := hrep _ hf y hy
      rw [List.mem_singleton] at h1 h2
      exact absurd (by rw [← e1, ← e2, h1, h2]) hxy
    · simpa using h.symm

/-! ### Termination -/

theorem collect_mono {α β : Type} {g g' : α → Option (List β)} : ∀ {l : List α} {r : List β}, (∀ a ∈ l, ∀ x, g a = some x → g' a = some x) →
    collect g l = some r → collect g' l = some r
  | [], r, _, h => h
  | a :: l, r, hg, h => by
    simp only [collect] at h ⊢
    cases e : g a with
    | none => rw [e] at h; cases h
    | some x =>
      rw [e] at h
      rw [hg a (by simp) x e]
      simp only at h ⊢
      cases e2 : collect g l with
      | none => rw [e2] at h; cases h
      | some y =>
        rw [e2] at h
        rw [collect_mono (fun b hb => hg b (List.mem_cons_of_mem _ hb)) e2]
        exact h

theorem coversF_mono {f : Nat} {ord : List Nat → List Nat} {ys : List Tm} : ∀ {xs : List Tm} {i : Nat} {js : List Nat} {s : Option Heap} {rs : List Product.Res},
    Product.coversF f ord ys xs i js s = some rs → Product.coversF (f + 1) ord ys xs i js s = some rs
  | [], i, js, none, rs, h => by simpa [Product.coversF] using h
  | [], i, js, some s, rs, h => by simpa [Product.coversF] using h
  | x :: xs, i, js, none, rs, h => by simpa [Product.coversF] using h
  | x :: xs, i, js, some s, rs, h => by
    simp only [Product.coversF] at h ⊢
    split
    · rename_i hl; rw [if_pos hl] at h; exact h
    · rename_i hl
      rw [if_neg hl] at h
      refine collect_mono (fun j _ z hz => ?_) h
      split at hz
      · cases hz
      · split at hz
        · cases hz
        · rename_i s' hs
          rw [Subst.coverF_mono _ _ _ _ hs]
          rw [Option.map_eq_some_iff] at hz
          obtain ⟨rs', h', rfl⟩ := hz
          simp only [coversF_mono h', Option.map_some]

theorem covers_evt {ord : List Nat → List Nat} (hord : ∀ l, (ord l).Perm l) {xs ys : List Tm} (hd : Disjoint (varsL xs) (varsL ys)) :
    ∃ cs, Evt fun f => Product.covers f ord xs ys = some cs := by
  obtain ⟨N, hN⟩ := Product.C15_terminates hord hd
  obtain ⟨cs, hcs⟩ := Option.ne_none_iff_exists'.1 (hN N le_rfl)
  refine ⟨cs, N, fun f hf => ?_⟩
  induction f, hf using Nat.le_induction with
  | base => exact hcs
  | succ f _ ih => exact coversF_mono ih

theorem sep_good {L : Set Nat} {s : Heap} (h : Subst.Sep L s) : Heap.Good s := by
  intro n
  cases hn : s n with
  | none => exact ⟨1, .var n, by simp [Heap.derefF, hn]⟩
  | some t =>
    obtain ⟨g, hg⟩ := Subst.deref_id (s := s) t (fun x hx => by
      by_contra hc
      obtain ⟨u, hu⟩ := Option.ne_none_iff_exists'.1 hc
      exact h.rng n t hn x hx (h.dom x u hu))
    exact ⟨g + 1, t, by simp [Heap.derefF, hn, hg]⟩

theorem allSome_evt {α : Type} {g : Nat → α → Option Tm} : ∀ {l : List α}, (∀ a ∈ l, Evt fun f => g f a ≠ none) → Evt fun f => allSome (l.map (g f)) ≠ none
  | [], _ => Evt.of_all fun f => by simp [allSome]
  | a :: l, h => by
    refine ((h a (by simp)).and (allSome_evt (l := l) fun b hb => h b (List.mem_cons_of_mem _ hb))).mono fun f hf => ?_
    obtain ⟨x, hx⟩ := Option.ne_none_iff_exists'.1 hf.1
    obtain ⟨y, hy⟩ := Option.ne_none_iff_exists'.1 hf.2
    simp [hx, allSome, hy]

theorem foldsBy_evt {ord : List Nat → List Nat} (hord : ∀ l, (ord l).Perm l) {R : Rule} {head : Tm} {ts : List Tm}
    (hd : Disjoint (varsL R.body) (varsL ts)) : Evt fun f => foldsBy f ord (inst head ts) R ≠ none := by
  obtain ⟨cs, hcs⟩ := covers_evt hord hd
  have h1 : ∀ c ∈ cs, Evt fun f => (foldOne f (inst head ts) R c).map Option.toList ≠ none := by
    intro c hc
    obtain ⟨f0, hf0⟩ := hcs.exists'
    obtain ⟨-, -, h3⟩ := Product.covers_spec hord (Product.disj_list hd) R.body 0 _ _ cs (fun n hn => hn) List.nodup_range (Product.sep_empty _) hf0
    obtain ⟨-, -, -, r4, -⟩ := Product.C15_result hord hd hf0 hc
    have hgood := sep_good (h3 c hc).sep
    have hev : ∀ t, Evt fun f => Subst.callF c.S f t ≠ none := fun t => (hgood.evt_deref t).mono fun f e => by
      show Heap.derefF _ _ _ ≠ none
      rw [e]; simp
    have hrest : allSome (c.R.map fun k => ts[k]?) ≠ none := by
      rw [pick_eq ts c.R fun j hj => ((r4 j).1 hj).1]; simp
    refine ((hev R.head).and (allSome_evt (l := R.body) fun t _ => hev t)).mono fun f hf => ?_
    obtain ⟨x, hx⟩ := Option.ne_none_iff_exists'.1 hf.1
    obtain ⟨y, hy⟩ := Option.ne_none_iff_exists'.1 hf.2
    obtain ⟨z, hz⟩ := Option.ne_none_iff_exists'.1 hrest
    simp [foldOne, hx, hy, hz]
  refine (hcs.and (collect_evt h1)).mono fun f hf => ?_
  simp only [foldsBy, inst, hf.1]
  simpa using hf.2

/-- **C80 (termination).**  Building a derivation ends, in a derivation or an exception. -/
theorem C80_ends {ord : List Nat → List Nat} (hord : ∀ l, (ord l).Perm l) {R : Rule} {head : Tm} {tm : κ → Tm} {kids : List κ}
    (hd : Disjoint (vars R.tm) (vars (inst head (kids.map tm)).tm)) : Evt fun f => construct f ord R head tm kids ≠ none := by
  obtain ⟨N, hN⟩ := (Subst.C06_covers hd).1
  -- each permutation of the children is covered or not, after finitely many steps
  have hall : ∀ l : List (List κ), (∀ ks ∈ l, ks.Perm kids) → Evt fun f => ∀ ks ∈ l, Subst.coversF f R.tm (inst head (ks.map tm)).tm ≠ none := by
    intro l
    induction l with
    | nil => intro _; exact Evt.of_all fun f ks h => by cases h
    | cons ks l ih =>
      intro h
      have h1 := (Subst.C06_covers (dis_perm hd (us := ks.map tm) fun t ht => ((h ks (by simp)).map tm).mem_iff.1 ht)).1
      refine (Evt.and h1 (ih fun k hk => h k (List.mem_cons_of_mem _ hk))).mono fun f hf k hk => ?_
      rcases List.mem_cons.1 hk with rfl | hk
      · exact hf.1
      · exact hf.2 k hk
  have hp := hall kids.permutations fun ks h => List.mem_permutations.1 h
  refine ((Evt.and ⟨N, hN⟩ hp).and (foldsBy_evt hord (head := head) (dis_body hd))).mono fun f hf => ?_
  obtain ⟨⟨h1, h2⟩, h3⟩ := hf
  unfold construct
  simp only
  split
  · rename_i e; exact absurd e h1
  · simp
  · unfold reorder
    split
    · rename_i e; exact absurd e h3
    · rename_i t ht
      split
      · simp
      · rename_i hr
        rw [ne_eq, not_not] at hr
        obtain ⟨al, ⟨p1, -⟩, p2, p3⟩ := full hord hd ht (List.mem_singleton.2 rfl) hr
        have po := order_perm p2 p3 p1
        rw [List.length_map] at po
        have hlt : ∀ j ∈ order t, j < kids.length := fun j hj => List.mem_range.1 (po.mem_iff.1 hj)
        rw [pick_eq kids _ hlt, pick_eq _ _ (by simpa using hlt)]
        simp only
        have := h2 (pick kids (order t)) (List.mem_permutations.2 (pick_perm po))
        rw [pick_map] at this
        split
        · rename_i e; exact absurd e this
        · simp
        · simp
    · simp

/-! ### Examples -/

section Examples
private def a0 (s : String) : Tm := .app [.con (.str s)]
private def a1 (s : String) (t : Tm) : Tm := .app [.con (.str s), t]
private def one : Tm := .con (.int 1)
private def two : Tm := .con (.int 2)

/-- `g(X) += a(X) * b(Y) * c(Y)` -/
def exR : Rule := ⟨a1 "g" (.var 0), [a1 "a" (.var 0), a1 "b" (.var 1), a1 "c" (.var 1)]⟩

/-- in order; two subgoals swapped; all three moved on by one place -/
example : construct 30 id exR (a1 "g" one) id [a1 "a" one, a1 "b" two, a1 "c" two] = some (some [a1 "a" one, a1 "b" two, a1 "c" two]) := by decide +kernel
example : construct 30 id exR (a1 "g" one) id [a1 "c" two, a1 "b" two, a1 "a" one] = some (some [a1 "a" one, a1 "b" two, a1 "c" two]) := by decide +kernel
example : construct 30 id exR (a1 "g" one) id [a1 "b" two, a1 "c" two, a1 "a" one] = some none := by decide +kernel

theorem exR_apart : Apart exR := by
  intro i j x y hx hy hij σ τ
  match i, j with
  | 0, 0 | 1, 1 | 2, 2 => exact absurd rfl hij
  | 0, 1 | 0, 2 | 1, 0 | 1, 2 | 2, 0 | 2, 1 =>
    simp only [exR, List.getElem?_cons_zero, List.getElem?_cons_succ, Option.some.injEq] at hx hy
    subst hx hy
    simp [a1]
  | n + 3, _ => simp [exR] at hx
  | 0, n + 3 | 1, n + 3 | 2, n + 3 => simp [exR] at hy

/-- the hypotheses of `C80_rotated`, and so of `C80_apart` and `C80_unique` -/
example : Apart exR ∧ Disjoint (vars exR.tm) (vars (inst (a1 "g" one) ([a1 "a" one, a1 "b" two, a1 "c" two].map id)).tm) ∧
    (∀ c ∈ [a1 "a" one, a1 "b" two, a1 "c" two], vars (id c) = ∅) ∧ 3 ≤ exR.body.length ∧
    Fits exR (a1 "g" one) ([a1 "a" one, a1 "b" two, a1 "c" two].map id) :=
  ⟨exR_apart, by decide, by decide, by decide, fun n => if n = 0 then one else two, by decide, by decide⟩

/-- `g(X) += a(X) * a(Y) * b`: with the children `b`, `a(1)`, `a(2)` the item could be `g(1)` or `g(2)` -/
def exA : Rule := ⟨a1 "g" (.var 0), [a1 "a" (.var 0), a1 "a" (.var 1), a0 "b"]⟩

example : construct 30 id exA (a1 "g" one) id [a0 "b", a1 "a" one, a1 "a" two] = some none := by decide +kernel

example : vars exA.head ⊆ varsL exA.body ∧ ¬ Fits exA (a1 "g" one) ([a0 "b", a1 "a" one, a1 "a" two].map id) ∧
    (∃ us, us.Perm ([a0 "b", a1 "a" one, a1 "a" two].map id) ∧ Fits exA (a1 "g" one) us) ∧
    (∃ us, us.Perm ([a0 "b", a1 "a" one, a1 "a" two].map id) ∧ Fits exA (a1 "g" two) us) := by
  refine ⟨by decide, ?_, ⟨[a1 "a" one, a1 "a" two, a0 "b"], by decide, fun n => if n = 0 then one else two, by decide, by decide⟩,
    ⟨[a1 "a" two, a1 "a" one, a0 "b"], by decide, fun n => if n = 0 then two else one, by decide, by decide⟩⟩
  rintro ⟨τ, -, h⟩
  simp [exA, a1, a0] at h
end Examples

end Reorder
end Verif
