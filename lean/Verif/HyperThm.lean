/-
Property C42: hypergraph reachability.
-/
import Verif.Hyper
import Mathlib.Data.Finset.Card
import Mathlib.Data.Finset.Lattice.Fold

set_option linter.unusedSectionVars false
set_option linter.unusedSimpArgs false

namespace Verif
namespace Hyper
variable {α : Type} [DecidableEq α]

/-! ### Specification -/

/-- hypergraphs built through the public API, together with the list of edges added so far -/
inductive Built : HGraph α → List (HEdge α) → Prop
  | empty : Built HGraph.empty []
  | add {g es} (h b) : Built g es → Built (g.addEdge h b) (es ++ [⟨h, b⟩])

/-- derivation trees: inputs are leaves, inner nodes are edges -/
inductive Tree (es : List (HEdge α)) (inputs : Finset α) : α → Type
  | input (x) : x ∈ inputs → Tree es inputs x
  | edge (e : HEdge α) : e ∈ es → (∀ i : Fin e.body.length, Tree es inputs (e.body.get i)) → Tree es inputs e.head

/-- `y` labels a node of the tree -/
inductive Tree.Has {es : List (HEdge α)} {inputs : Finset α} : {x : α} → Tree es inputs x → α → Prop
  | root {x} (t : Tree es inputs x) : Has t x
  | child {e he kids y} (i) : Has (kids i) y → Has (Tree.edge e he kids) y

/-- what the second loop computes: from the outputs downwards through derivable body items -/
inductive Useful (es : List (HEdge α)) (inputs outputs : Finset α) : α → Prop
  | out {x} : x ∈ outputs → Useful es inputs outputs x
  | down {e b} : e ∈ es → Useful es inputs outputs e.head → b ∈ e.body → Nonempty (Tree es inputs b) →
      Useful es inputs outputs b

/-! ### The graph structure -/

theorem mem_edges {g : HGraph α} (h : Dict.WF g.incoming) {e : HEdge α} :
    e ∈ g.edges ↔ ∃ x, e ∈ g.inc x := by
  obtain ⟨d, ns⟩ := g
  simp only [HGraph.edges, HGraph.inc, List.mem_flatMap, Prod.exists] at *
  clear ns
  induction d with
  | nil => simp
  | cons p d ih =>
    obtain ⟨k, v⟩ := p
    have hk : k ∉ Dict.keys d := by
      have := h; simp only [Dict.WF, Dict.keys_cons, List.nodup_cons] at this; exact this.1
    have hd : Dict.WF d := by
      have := h; simp only [Dict.WF, Dict.keys_cons, List.nodup_cons] at this; exact this.2
    have ih := ih hd
    have hget : Dict.get d k = none := (Dict.get_eq_none_iff _ _).2 hk
    constructor
    · rintro ⟨a, b, hm, he⟩
      rcases List.mem_cons.1 hm with heq | hm
      · obtain ⟨rfl, rfl⟩ := Prod.mk.inj heq
        exact ⟨a, by simp [Dict.get_cons, he]⟩
      · obtain ⟨x, hx⟩ := ih.1 ⟨a, b, hm, he⟩
        refine ⟨x, ?_⟩
        have : k ≠ x := by rintro rfl; simp [hget] at hx
        simpa [Dict.get_cons, this] using hx
    · rintro ⟨x, hx⟩
      by_cases e : k = x
      · simp only [Dict.get_cons, if_pos e, Option.getD_some] at hx; exact ⟨k, v, by simp, hx⟩
      · simp only [Dict.get_cons, if_neg e] at hx
        obtain ⟨a, b, hm, he⟩ := ih.2 ⟨x, hx⟩
        exact ⟨a, b, by simp [hm], he⟩

theorem Built.wf {g : HGraph α} {es} (h : Built g es) :
    Dict.WF g.incoming ∧ ∀ x e, e ∈ g.inc x ↔ e ∈ es ∧ e.head = x := by
  induction h with
  | empty => exact ⟨by simp [HGraph.empty, Dict.WF], by simp [HGraph.empty, HGraph.inc]⟩
  | @add g es h b _ ih =>
    refine ⟨ih.1.set _ _, fun x e => ?_⟩
    have : (g.addEdge h b).inc x = if h = x then g.inc h ++ [⟨h, b⟩] else g.inc x := by
      simp only [HGraph.inc, HGraph.addEdge, Dict.get_set]
      split <;> simp
    rw [this]
    split
    · rename_i e1; subst e1
      simp only [List.mem_append, ih.2, List.mem_singleton]
      constructor
      · rintro (h | rfl)
        · exact ⟨.inl h.1, h.2⟩
        · simp
      · rintro ⟨h | h, h'⟩
        · exact .inl ⟨h, h'⟩
        · exact .inr h
    · rename_i e1
      simp only [List.mem_append, ih.2, List.mem_singleton]
      constructor
      · rintro h; exact ⟨.inl h.1, h.2⟩
      · rintro ⟨h | h, h'⟩
        · exact ⟨h, h'⟩
        · subst h; exact absurd h' e1

theorem Built.mem {g : HGraph α} {es} (h : Built g es) (e) : e ∈ g.edges ↔ e ∈ es := by
  rw [mem_edges h.wf.1]
  simp [h.wf.2]

theorem Built.mem_out {g : HGraph α} {es} (h : Built g es) (e x) : e ∈ g.out x ↔ e ∈ es ∧ x ∈ e.body := by
  simp only [HGraph.out, List.mem_flatMap, List.mem_map, List.mem_filter, decide_eq_true_eq, h.mem]
  constructor
  · rintro ⟨e', he, b, ⟨hb, rfl⟩, rfl⟩; exact ⟨he, hb⟩
  · rintro ⟨he, hx⟩; exact ⟨e, he, x, ⟨hx, rfl⟩, rfl⟩

/-! ### First loop -/

structure FInv (es : List (HEdge α)) (inputs : Finset α) (todo : List (HEdge α)) (s : WS α) : Prop where
  inp : inputs ⊆ s.set
  sound : ∀ x ∈ s.set, Nonempty (Tree es inputs x)
  closed : ∀ e ∈ es, (∀ b ∈ e.body, b ∈ s.set) → e.head ∉ s.set → (∃ b ∈ e.body, b ∈ s.agenda) ∨ e ∈ todo

variable {g : HGraph α} {es : List (HEdge α)} {inputs outputs : Finset α}

theorem fwdEdge_inv {e todo s} (he : e ∈ es) (h : FInv es inputs (e :: todo) s) :
    FInv es inputs todo (fwdEdge s e) := by
  unfold fwdEdge
  split
  · rename_i hb
    split
    · rename_i hh
      refine ⟨h.inp, h.sound, fun e' he' hb' hn => ?_⟩
      rcases h.closed e' he' hb' hn with h1 | h1
      · exact .inl h1
      · rcases List.mem_cons.1 h1 with rfl | h1
        · exact absurd hh hn
        · exact .inr h1
    · rename_i hh
      refine ⟨fun x hx => Finset.mem_insert_of_mem (h.inp hx), fun x hx => ?_, fun e' he' hb' hn => ?_⟩
      · rcases Finset.mem_insert.1 hx with rfl | hx
        · have : ∀ i : Fin e.body.length, Nonempty (Tree es inputs (e.body.get i)) :=
            fun i => h.sound _ (hb _ (List.get_mem _ _))
          exact ⟨.edge e he fun i => (this i).some⟩
        · exact h.sound x hx
      · simp only [Finset.mem_insert, not_or] at hn hb' ⊢
        by_cases hx : e.head ∈ e'.body
        · exact .inl ⟨_, hx, .inl rfl⟩
        · have hb2 : ∀ b ∈ e'.body, b ∈ s.set := fun b hb1 => by
            rcases hb' b hb1 with rfl | h2
            · exact absurd hb1 hx
            · exact h2
          rcases h.closed e' he' hb2 hn.2 with ⟨b, h1, h2⟩ | h1
          · exact .inl ⟨b, h1, .inr h2⟩
          · rcases List.mem_cons.1 h1 with rfl | h1
            · exact absurd rfl hn.1
            · exact .inr h1
  · rename_i hb
    refine ⟨h.inp, h.sound, fun e' he' hb' hn => ?_⟩
    rcases h.closed e' he' hb' hn with h1 | h1
    · exact .inl h1
    · rcases List.mem_cons.1 h1 with rfl | h1
      · exact absurd hb' hb
      · exact .inr h1

theorem fold_inv : ∀ todo s, (∀ e ∈ todo, e ∈ es) → FInv es inputs todo s →
    FInv es inputs [] (todo.foldl fwdEdge s) := by
  intro todo
  induction todo with
  | nil => intro s _ h; exact h
  | cons e todo ih => intro s he h; exact ih _ (fun e h => he e (by simp [h])) (fwdEdge_inv (he e (by simp)) h)

theorem fstep_inv (hg : Built g es) {s s'} (h : FInv es inputs [] s) (st : FStep g s s') : FInv es inputs [] s' := by
  cases st with
  | pop x hx =>
    refine fold_inv _ _ (fun e he => ((hg.mem_out e x).1 he).1) ⟨h.inp, h.sound, fun e he hb hn => ?_⟩
    rcases h.closed e he hb hn with ⟨b, h1, h2⟩ | h1
    · by_cases hbx : b = x
      · subst hbx; exact .inr ((hg.mem_out e b).2 ⟨he, h1⟩)
      · exact .inl ⟨b, h1, Finset.mem_erase.2 ⟨hbx, h2⟩⟩
    · simp at h1

theorem finit_inv (hg : Built g es) : FInv es inputs [] (fwdInit g inputs) := by
  refine ⟨fun x hx => by simp [fwdInit, hx], fun x hx => ?_, fun e he hb hn => ?_⟩
  · simp only [fwdInit, Finset.mem_union, List.mem_toFinset, List.mem_map, List.mem_filter, hg.mem] at hx
    rcases hx with hx | ⟨e, ⟨he, hb⟩, rfl⟩
    · exact ⟨.input x hx⟩
    · refine ⟨.edge e he fun i => absurd i.2 ?_⟩
      have := List.isEmpty_iff.1 hb
      simp [this]
  · cases hbody : e.body with
    | nil =>
      exfalso; apply hn
      simp only [fwdInit, Finset.mem_union, List.mem_toFinset, List.mem_map, List.mem_filter, hg.mem]
      exact .inr ⟨e, ⟨he, by simp [hbody]⟩, rfl⟩
    | cons b bs => exact .inl ⟨b, by simp, hb b (by simp [hbody])⟩

theorem fwd_inv (hg : Built g es) {s} (r : Relation.ReflTransGen (FStep g) (fwdInit g inputs) s) :
    FInv es inputs [] s := by
  induction r with
  | refl => exact finit_inv hg
  | tail _ st ih => exact fstep_inv hg ih st

theorem tree_mem {C : Finset α} (h : FInv es inputs [] ⟨C, ∅⟩) : ∀ {x}, Tree es inputs x → x ∈ C := by
  intro x t
  induction t with
  | input x hx => exact h.inp hx
  | edge e he kids ih =>
    by_contra hn
    have := h.closed e he (fun b hb => by
      obtain ⟨i, hi⟩ := List.get_of_mem hb
      have := ih i; rw [hi] at this; exact this) hn
    simp at this

/-! ### Second loop -/

structure BInv (es : List (HEdge α)) (inputs outputs C : Finset α) (todo : List (HEdge α)) (e0 : Option (HEdge α × List α))
    (s : WS α) : Prop where
  out : outputs ⊆ s.set
  ag : s.agenda ⊆ s.set
  sound : ∀ x ∈ s.set, Useful es inputs outputs x
  closed : ∀ e ∈ es, e.head ∈ s.set → ∀ b ∈ e.body, b ∈ C → b ∉ s.set → e.head ∈ s.agenda ∨ e ∈ todo ∨
    ∃ bs, e0 = some (e, bs) ∧ b ∈ bs

variable {C : Finset α}

theorem bwdBody_inv (hC : ∀ x ∈ C, Nonempty (Tree es inputs x)) {todo e b bs s} (he : e ∈ es) (hb : b ∈ e.body)
    (hh : e.head ∈ s.set) (h : BInv es inputs outputs C todo (some (e, b :: bs)) s) :
    BInv es inputs outputs C todo (some (e, bs)) (bwdBody C s b) ∧ s.set ⊆ (bwdBody C s b).set := by
  unfold bwdBody
  split
  · rename_i hc
    refine ⟨⟨fun x hx => Finset.mem_insert_of_mem (h.out hx), Finset.insert_subset_insert _ h.ag, fun x hx => ?_, fun e' he' hh' b' hb' hc' hn => ?_⟩,
      Finset.subset_insert _ _⟩
    · rcases Finset.mem_insert.1 hx with rfl | hx
      · exact .down he (h.sound _ hh) hb (hC _ hc.2)
      · exact h.sound x hx
    · simp only [Finset.mem_insert, not_or] at hh' hn ⊢
      rcases hh' with hh' | hh'
      · exact .inl (.inl hh')
      · rcases h.closed e' he' hh' b' hb' hc' hn.2 with h1 | h1 | ⟨bs', h1, h2⟩
        · exact .inl (.inr h1)
        · exact .inr (.inl h1)
        · simp only [Option.some.injEq, Prod.mk.injEq] at h1
          obtain ⟨rfl, rfl⟩ := h1
          rcases List.mem_cons.1 h2 with rfl | h2
          · exact absurd rfl hn.1
          · exact .inr (.inr ⟨bs, rfl, h2⟩)
  · rename_i hc
    refine ⟨⟨h.out, h.ag, h.sound, fun e' he' hh' b' hb' hc' hn => ?_⟩, fun _ h => h⟩
    rcases h.closed e' he' hh' b' hb' hc' hn with h1 | h1 | ⟨bs', h1, h2⟩
    · exact .inl h1
    · exact .inr (.inl h1)
    · simp only [Option.some.injEq, Prod.mk.injEq] at h1
      obtain ⟨rfl, rfl⟩ := h1
      rcases List.mem_cons.1 h2 with rfl | h2
      · exact absurd ⟨hn, hc'⟩ hc
      · exact .inr (.inr ⟨bs, rfl, h2⟩)

theorem bwdBody_fold (hC : ∀ x ∈ C, Nonempty (Tree es inputs x)) {todo e} (he : e ∈ es) : ∀ bs s,
    (∀ b ∈ bs, b ∈ e.body) → e.head ∈ s.set → BInv es inputs outputs C todo (some (e, bs)) s →
    BInv es inputs outputs C todo none (bs.foldl (bwdBody C) s) := by
  intro bs
  induction bs with
  | nil =>
    intro s _ _ h
    refine ⟨h.out, h.ag, h.sound, fun e' he' hh' b' hb' hc' hn => ?_⟩
    rcases h.closed e' he' hh' b' hb' hc' hn with h1 | h1 | ⟨bs', h1, h2⟩
    · exact .inl h1
    · exact .inr (.inl h1)
    · simp only [Option.some.injEq, Prod.mk.injEq] at h1
      obtain ⟨rfl, rfl⟩ := h1
      simp at h2
  | cons b bs ih =>
    intro s hb hh h
    obtain ⟨h1, h2⟩ := bwdBody_inv hC he (hb b (by simp)) hh h
    exact ih _ (fun b h => hb b (by simp [h])) (h2 hh) h1

theorem bwdEdge_fold (hC : ∀ x ∈ C, Nonempty (Tree es inputs x)) : ∀ todo s, (∀ e ∈ todo, e ∈ es) →
    BInv es inputs outputs C todo none s → BInv es inputs outputs C [] none (todo.foldl (bwdEdge C) s) := by
  intro todo
  induction todo with
  | nil => intro s _ h; exact h
  | cons e todo ih =>
    intro s he h
    refine ih _ (fun e h => he e (by simp [h])) ?_
    unfold bwdEdge
    split
    · rename_i hh
      refine bwdBody_fold hC (he e (by simp)) _ _ (fun b hb => hb) hh ⟨h.out, h.ag, h.sound, fun e' he' hh' b' hb' hc' hn => ?_⟩
      rcases h.closed e' he' hh' b' hb' hc' hn with h1 | h1 | ⟨bs', h1, h2⟩
      · exact .inl h1
      · rcases List.mem_cons.1 h1 with rfl | h1
        · exact .inr (.inr ⟨_, rfl, hb'⟩)
        · exact .inr (.inl h1)
      · simp at h1
    · rename_i hh
      refine ⟨h.out, h.ag, h.sound, fun e' he' hh' b' hb' hc' hn => ?_⟩
      rcases h.closed e' he' hh' b' hb' hc' hn with h1 | h1 | ⟨bs', h1, h2⟩
      · exact .inl h1
      · rcases List.mem_cons.1 h1 with rfl | h1
        · exact absurd hh' hh
        · exact .inr (.inl h1)
      · simp at h1

theorem bwd_inv (hg : Built g es) (hC : ∀ x ∈ C, Nonempty (Tree es inputs x)) {s}
    (r : Relation.ReflTransGen (BStep g C) ⟨outputs, outputs⟩ s) : BInv es inputs outputs C [] none s := by
  induction r with
  | refl => exact ⟨fun _ h => h, fun _ h => h, fun x hx => .out hx, fun e _ hh b _ _ _ => .inl hh⟩
  | tail _ st ih =>
    cases st with
    | pop x hx =>
      refine bwdEdge_fold hC _ _ (fun e he => ((hg.wf.2 x e).1 he).1)
        ⟨ih.out, fun y hy => ih.ag (Finset.mem_of_mem_erase hy), ih.sound, fun e he hh b hb hc hn => ?_⟩
      rcases ih.closed e he hh b hb hc hn with h1 | h1 | ⟨_, h1, _⟩
      · by_cases hbx : e.head = x
        · exact .inr (.inl ((hg.wf.2 x e).2 ⟨he, hbx⟩))
        · exact .inl (Finset.mem_erase.2 ⟨hbx, h1⟩)
      · simp at h1
      · simp at h1

/-! ### Property C42 -/

/-- The first loop ends with exactly the derivable nodes, and the result is exactly the set of nodes
reached from the outputs downwards through derivable nodes, for every order in which the agendas pop. -/
theorem C42_exact (hg : Built g es) {C T : Finset α} (h : Reachability g inputs outputs C T) :
    (∀ x, x ∈ C ↔ Nonempty (Tree es inputs x)) ∧ ∀ x, x ∈ T ↔ Useful es inputs outputs x := by
  have f := fwd_inv hg h.1
  have hC : ∀ x, x ∈ C ↔ Nonempty (Tree es inputs x) := fun x => ⟨f.sound x, fun ⟨t⟩ => tree_mem f t⟩
  have b := bwd_inv hg (fun x hx => (hC x).1 hx) h.2
  refine ⟨hC, fun x => ⟨b.sound x, fun u => ?_⟩⟩
  induction u with
  | out hx => exact b.out hx
  | @down e y he _ hb ht ih =>
    by_contra hn
    have := b.closed e he ih y hb ((hC y).2 ht) hn
    simp at this

/-- Every node occurring in some derivation of an output from the inputs is returned. -/
theorem C42_overapproximates (hg : Built g es) {C T : Finset α} (h : Reachability g inputs outputs C T)
    {o y : α} (ho : o ∈ outputs) (t : Tree es inputs o) (hy : t.Has y) : y ∈ T := by
  rw [(C42_exact hg h).2]
  have key : ∀ {x} (t : Tree es inputs x) {y}, t.Has y → Useful es inputs outputs x → Useful es inputs outputs y := by
    intro x t y hy
    induction hy with
    | root => exact id
    | @child e he kids y i _ ih => intro hu; exact ih (.down he hu (List.get_mem _ _) ⟨kids i⟩)
  exact key t hy (.out ho)

/-- number of iterations left -/
def mu (U : Finset α) (s : WS α) : Nat := 2 * (U \ s.set).card + s.agenda.card

theorem mu_insert {U : Finset α} {s : WS α} {x} (hx : x ∉ s.set) (hU : x ∈ U) :
    mu U ⟨insert x s.set, insert x s.agenda⟩ ≤ mu U s := by
  unfold mu
  simp only
  have h1 : (U \ s.set).card = (U \ insert x s.set).card + 1 := by
    rw [Finset.sdiff_insert, Finset.card_erase_of_mem (by simp [hx, hU])]
    have : 0 < (U \ s.set).card := Finset.card_pos.2 ⟨x, by simp [hx, hU]⟩
    omega
  have h2 := Finset.card_insert_le x s.agenda
  omega

theorem mu_pop {U : Finset α} {s : WS α} {x} (hx : x ∈ s.agenda) : mu U ⟨s.set, s.agenda.erase x⟩ < mu U s := by
  unfold mu
  simp only [Finset.card_erase_of_mem hx]
  have : 0 < s.agenda.card := Finset.card_pos.2 ⟨x, hx⟩
  omega

/-- Both loops terminate for every pop order: each iteration decreases a natural number. -/
theorem C42_terminates (hg : Built g es) (C : Finset α) :
    (∃ μ : WS α → Nat, ∀ s s', FStep g s s' → μ s' < μ s) ∧ (∃ μ : WS α → Nat, ∀ s s', BStep g C s s' → μ s' < μ s) := by
  constructor
  · let U : Finset α := (es.map HEdge.head).toFinset
    refine ⟨mu U, fun s s' st => ?_⟩
    cases st with
    | pop x hx =>
      refine lt_of_le_of_lt ?_ (mu_pop (U := U) hx)
      unfold fwdIter
      have : ∀ (l : List (HEdge α)) (s : WS α), (∀ e ∈ l, e ∈ es) → mu U (l.foldl fwdEdge s) ≤ mu U s := by
        intro l
        induction l with
        | nil => intro s _; exact le_refl _
        | cons e l ih =>
          intro s he
          refine le_trans (ih _ fun e h => he e (by simp [h])) ?_
          unfold fwdEdge
          split
          · split
            · exact le_refl _
            · rename_i hn
              refine mu_insert hn ?_
              simp only [U, List.mem_toFinset]; exact List.mem_map.2 ⟨e, he e (by simp), rfl⟩
          · exact le_refl _
      exact this _ _ fun e he => ((hg.mem_out e x).1 he).1
  · refine ⟨mu C, fun s s' st => ?_⟩
    cases st with
    | pop x hx =>
      refine lt_of_le_of_lt ?_ (mu_pop (U := C) hx)
      unfold bwdIter
      have hb : ∀ (l : List α) (s : WS α), mu C (l.foldl (bwdBody C) s) ≤ mu C s := by
        intro l
        induction l with
        | nil => intro s; exact le_refl _
        | cons b l ih =>
          intro s
          refine le_trans (ih _) ?_
          unfold bwdBody
          split
          · rename_i hn; exact mu_insert hn.1 hn.2
          · exact le_refl _
      have : ∀ (l : List (HEdge α)) (s : WS α), mu C (l.foldl (bwdEdge C) s) ≤ mu C s := by
        intro l
        induction l with
        | nil => intro s; exact le_refl _
        | cons e l ih =>
          intro s
          refine le_trans (ih _) ?_
          unfold bwdEdge
          split
          · exact hb _ _
          · exact le_refl _
      exact this _ _

/-- A loop that has not ended can always take another step, so every run can be completed to a result. -/
theorem C42_total (hg : Built g es) (inputs outputs : Finset α) : ∃ C T, Reachability g inputs outputs C T := by
  have key : ∀ (R : WS α → WS α → Prop) (μ : WS α → Nat), (∀ s s', R s s' → μ s' < μ s) →
      (∀ s, s.agenda.Nonempty → ∃ s', R s s') → ∀ s, ∃ C, Relation.ReflTransGen R s ⟨C, ∅⟩ := by
    intro R μ hμ hp s
    induction h : μ s using Nat.strong_induction_on generalizing s with
    | _ n ih =>
      by_cases ha : s.agenda.Nonempty
      · obtain ⟨s', hs⟩ := hp s ha
        obtain ⟨C, hC⟩ := ih _ (h ▸ hμ _ _ hs) s' rfl
        exact ⟨C, hC.head hs⟩
      · obtain ⟨C, A⟩ := s
        have : A = ∅ := Finset.not_nonempty_iff_eq_empty.1 ha
        subst this; exact ⟨C, .refl⟩
  obtain ⟨μ1, h1⟩ := (C42_terminates hg ∅).1
  obtain ⟨C, hC⟩ := key _ μ1 h1 (fun s ⟨x, hx⟩ => ⟨_, .pop s x hx⟩) (fwdInit g inputs)
  obtain ⟨μ2, h2⟩ := (C42_terminates hg C).2
  obtain ⟨T, hT⟩ := key _ μ2 h2 (fun s ⟨x, hx⟩ => ⟨_, .pop s x hx⟩) ⟨outputs, outputs⟩
  exact ⟨C, T, hC, hT⟩

/-- Over-approximation only: with the single edge `1 ← 2, 3`, input `2` and output `1`, every run returns
`2` although no output is derivable at all. -/
theorem C42_strict : ∃ (g : HGraph Nat) (es : List (HEdge Nat)), Built g es ∧
    (∀ C T, Reachability g {2} {1} C T → 2 ∈ T) ∧ ¬ Nonempty (Tree es {2} 1) := by
  have hg := Built.add (α := Nat) 1 [2, 3] .empty
  refine ⟨_, _, hg, fun C T h => ?_, ?_⟩
  · rw [(C42_exact hg h).2]
    exact .down (e := ⟨1, [2, 3]⟩) (by simp) (.out (by simp)) (by simp) ⟨.input 2 (by simp)⟩
  · have no3 : ∀ {x}, Tree (α := Nat) ([] ++ [⟨1, [2, 3]⟩]) {2} x → x ≠ 3 ∧ x ≠ 1 := by
      intro x t
      induction t with
      | input x hx => simp at hx; subst hx; decide
      | edge e he kids ih =>
        simp at he; subst he
        exact absurd rfl (ih ⟨1, by simp⟩).1
    rintro ⟨t⟩; exact (no3 t).2 rfl

-- non-vacuity: an actual graph with an actual result
example : ∃ C T, Reachability ((HGraph.empty.addEdge (1 : Nat) [2, 2]).addEdge 3 [1]) {2} {3} C T ∧ 1 ∈ T ∧ 2 ∈ T := by
  have hg := Built.add (α := Nat) 3 [1] (.add 1 [2, 2] .empty)
  obtain ⟨C, T, h⟩ := C42_total hg {2} {3}
  have t2 : Tree (α := Nat) (([] ++ [⟨1, [2, 2]⟩]) ++ [⟨3, [1]⟩]) {2} 2 := .input 2 (by simp)
  have t1 : Tree (α := Nat) (([] ++ [⟨1, [2, 2]⟩]) ++ [⟨3, [1]⟩]) {2} 1 :=
    .edge ⟨1, [2, 2]⟩ (by simp) fun i => match i with | ⟨0, _⟩ => t2 | ⟨1, _⟩ => t2
  have u1 := (C42_exact hg h).2 1
  refine ⟨C, T, h, u1.2 (.down (e := ⟨3, [1]⟩) (by simp) (.out (by simp)) (by simp) ⟨t1⟩), ?_⟩
  exact ((C42_exact hg h).2 2).2 (.down (e := ⟨1, [2, 2]⟩) (by simp)
    (.down (e := ⟨3, [1]⟩) (by simp) (.out (by simp)) (by simp) ⟨t1⟩) (by simp) ⟨t2⟩)

end Hyper
end Verif
