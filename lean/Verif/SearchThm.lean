/-
Theorems about the search loops (`Verif.Search`): C72 (agenda-based search) and C73 (beam search).
-/
import Verif.Search

set_option linter.unusedSectionVars false
set_option linter.unusedSimpArgs false

namespace Verif
namespace Search

section
variable {S P K D : Type} [DecidableEq K] [LinearOrder D]

/-! ### Spec -/

/-- the states that the moves generate from `x`, passing only through states whose program, or an equal program of another such state,
passes the check -/
inductive Gen (g : Cfg S P K D) (x : S) : S → Prop
  | root : Gen g x x
  | move {y y' z : S} : Gen g x y → Gen g x y' → g.key (g.prog y') = g.key (g.prog y) → g.check (g.prog y') = true → z ∈ g.drive y → Gen g x z

/-- a generated state whose program equals one, of a generated state, that passes the check -/
def Passes (g : Cfg S P K D) (x y : S) : Prop :=
  Gen g x y ∧ ∃ y', Gen g x y' ∧ g.key (g.prog y') = g.key (g.prog y) ∧ g.check (g.prog y') = true

/-- the search can be in state `s` after the choices `cs` -/
def After (g : Cfg S P K D) (x : S) (cs : List Choice) (s : St S P K D) : Prop := exec g cs (init g x) = .next s

/-- the search has ended in state `s` with the choices `cs` -/
def Ended (g : Cfg S P K D) (x : S) (cs : List Choice) (s : St S P K D) : Prop := exec g cs (init g x) = .done s

/-! ### The invariant -/

structure Inv (g : Cfg S P K D) (x : S) (s : St S P K D) : Prop where
  keys : s.agenda.map Prod.fst = s.fifo
  sorted : s.fifo.Pairwise (· < ·)
  perm : (s.popped ++ s.fifo).Perm (List.range s.states.length)
  prios : ∀ a ∈ s.agenda, ∃ y, s.states[a.1]? = some y ∧ a.2 = g.prio y
  chart : s.chart = s.popped.filter fun i => (s.states[i]?).any fun y => s.cache.lookup (g.key (g.prog y)) == some true
  cache : ∀ k b, s.cache.lookup k = some b → ∃ y, Gen g x y ∧ g.key (g.prog y) = k ∧ g.check (g.prog y) = b
  cached : ∀ i ∈ s.popped, ∀ y, s.states[i]? = some y → s.cache.lookup (g.key (g.prog y)) ≠ none
  yields : s.yields.map some = s.chart.map fun i => (s.states[i]?).map g.prog
  bestCost : s.bestCost = g.cost s.best
  best : s.best = g.prog x ∨ s.best ∈ s.yields
  least : s.bestCost ≤ g.cost (g.prog x) ∧ ∀ p ∈ s.yields, s.bestCost ≤ g.cost p
  gen : ∀ y ∈ s.states, Gen g x y
  pend : ∀ y, s.pending = some y → Passes g x y
  closed : ∀ i ∈ s.chart, ∀ y, s.states[i]? = some y → s.pending = some y ∨ ∀ z ∈ g.drive y, z ∈ s.states
  start : x ∈ s.states

variable {g : Cfg S P K D} {x : S} {s : St S P K D}

theorem Inv.fifoLt (h : Inv g x s) {i : Nat} (hi : i ∈ s.fifo) : i < s.states.length := by
  have := h.perm.mem_iff.1 (List.mem_append_right _ hi)
  exact List.mem_range.1 this
theorem Inv.popLt (h : Inv g x s) {i : Nat} (hi : i ∈ s.popped) : i < s.states.length := by
  have := h.perm.mem_iff.1 (List.mem_append_left _ hi)
  exact List.mem_range.1 this
theorem Inv.chartPop (h : Inv g x s) {i : Nat} (hi : i ∈ s.chart) : i ∈ s.popped := by
  rw [h.chart] at hi; exact (List.mem_filter.1 hi).1

theorem filter_ne {l : List (Nat × D)} {i : Nat} (h : i ∉ l.map Prod.fst) : l.filter (fun a => a.1 != i) = l := by
  rw [List.filter_eq_self]
  intro a ha
  simp only [bne_iff_ne]
  rintro rfl
  exact h (List.mem_map_of_mem ha)

theorem update_eq (h : Inv g x s) (y : S) : update g s y =
    { s with states := s.states ++ [y], agenda := s.agenda ++ [(s.states.length, g.prio y)], fifo := s.fifo ++ [s.states.length] } := by
  have hn : s.states.length ∉ s.fifo := fun hi => lt_irrefl _ (h.fifoLt hi)
  unfold update
  simp only [if_neg hn]
  rw [filter_ne (h.keys ▸ hn)]

theorem Inv.update (h : Inv g x s) {y : S} (hy : Gen g x y) : Inv g x (update g s y) := by
  rw [update_eq h]
  have old : ∀ i < s.states.length, (s.states ++ [y])[i]? = s.states[i]? := fun i hi => List.getElem?_append_left hi
  have hc : s.popped.filter (fun i => ((s.states ++ [y])[i]?).any fun y => s.cache.lookup (g.key (g.prog y)) == some true) =
      s.popped.filter fun i => (s.states[i]?).any fun y => s.cache.lookup (g.key (g.prog y)) == some true :=
    List.filter_congr fun i hi => by rw [old i (h.popLt hi)]
  exact {
    keys := by simp [h.keys]
    sorted := by
      rw [List.pairwise_append]
      exact ⟨h.sorted, by simp, fun a ha b hb => by simp at hb; subst hb; exact h.fifoLt ha⟩
    perm := by
      simp only [List.length_append, List.length_singleton, List.range_succ]
      rw [← List.append_assoc]
      exact h.perm.append_right _
    prios := by
      intro a ha
      simp only [List.mem_append, List.mem_singleton] at ha
      rcases ha with ha | rfl
      · obtain ⟨z, h1, h2⟩ := h.prios a ha
        exact ⟨z, by rw [old _ (List.getElem?_eq_some_iff.1 h1).1, h1], h2⟩
      · exact ⟨y, by simp, rfl⟩
    chart := by rw [hc]; exact h.chart
    cache := h.cache
    cached := by
      intro i hi z hz
      rw [old i (h.popLt hi)] at hz
      exact h.cached i hi z hz
    yields := by
      rw [h.yields]
      exact List.map_congr_left fun i hi => by rw [old i (h.popLt (h.chartPop hi))]
    bestCost := h.bestCost
    best := h.best
    least := h.least
    gen := by
      intro z hz
      simp only [List.mem_append, List.mem_singleton] at hz
      rcases hz with hz | rfl
      · exact h.gen z hz
      · exact hy
    pend := h.pend
    closed := by
      intro i hi z hz
      rw [old i (h.popLt (h.chartPop hi))] at hz
      rcases h.closed i hi z hz with h' | h'
      · exact .inl h'
      · exact .inr fun w hw => List.mem_append_left _ (h' w hw)
    start := List.mem_append_left _ h.start }

theorem Inv.updates : ∀ {ys : List S} {s : St S P K D}, Inv g x s → (∀ y ∈ ys, Gen g x y) →
    Inv g x (ys.foldl (Search.update g) s) ∧ (ys.foldl (Search.update g) s).pending = s.pending ∧
    (ys.foldl (Search.update g) s).states = s.states ++ ys ∧ (ys.foldl (Search.update g) s).popped = s.popped ∧
    (ys.foldl (Search.update g) s).fifo = s.fifo ++ (List.range' s.states.length ys.length) ∧ (ys.foldl (Search.update g) s).chart = s.chart ∧
    (ys.foldl (Search.update g) s).best = s.best ∧ (ys.foldl (Search.update g) s).yields = s.yields
  | [], _, h, _ => ⟨h, rfl, by simp, rfl, by simp, rfl, rfl, rfl⟩
  | y :: ys, s, h, hy => by
    have h1 := h.update (hy y (by simp))
    obtain ⟨a1, a2, a3, a4, a5, a6, a7, a8⟩ := Inv.updates (ys := ys) h1 fun z hz => hy z (List.mem_cons_of_mem _ hz)
    simp only [List.foldl_cons]
    rw [update_eq h] at a1 a2 a3 a4 a5 a6 a7 a8 ⊢
    refine ⟨a1, a2, by rw [a3]; simp, a4, ?_, a6, a7, a8⟩
    rw [a5]
    simp [List.range'_succ]

theorem init_inv : Inv g x (init g x) := by
  have e : init g x = ⟨[x], [(0, g.prio x)], [0], [], g.prog x, g.cost (g.prog x), [], none, [], []⟩ := by
    simp [init, update]
  rw [e]
  exact {
    keys := by simp
    sorted := by simp
    perm := by simp
    prios := by simp
    chart := by simp
    cache := by simp
    cached := by simp
    yields := by simp
    bestCost := rfl
    best := .inl rfl
    least := by simp
    gen := by intro y hy; simp at hy; subst hy; exact .root
    pend := by simp
    closed := by simp
    start := by simp }

/-- the states to push -/
def driven (g : Cfg S P K D) (s : St S P K D) : List S := (s.pending.map g.drive).getD []

/-- driving the pending state -/
theorem Inv.resume (h : Inv g x s) : Inv g x (resume g s) ∧ (resume g s).pending = none ∧ (resume g s).popped = s.popped ∧
    (resume g s).fifo = s.fifo ++ List.range' s.states.length (driven g s).length ∧ (resume g s).chart = s.chart ∧ (resume g s).states = s.states ++ driven g s ∧
    (resume g s).best = s.best ∧ (resume g s).yields = s.yields := by
  unfold Search.resume driven
  cases hp : s.pending with
  | none => exact ⟨h, hp, rfl, by simp, rfl, by simp, rfl, rfl⟩
  | some y =>
    obtain ⟨hy, y', hy', hk, hc⟩ := h.pend y hp
    have gd : ∀ z ∈ g.drive y, Gen g x z := fun z hz => .move hy hy' hk hc hz
    obtain ⟨a1, a2, a3, a4, a5, a6, a7, a8⟩ := Inv.updates h gd
    -- the pending mark does not matter for the updates
    have key : ∀ (ys : List S) (t : St S P K D), ys.foldl (Search.update g) { t with pending := none } =
        { ys.foldl (Search.update g) t with pending := none } := by
      intro ys
      induction ys with
      | nil => intro t; rfl
      | cons z ys ih => intro t; simp only [List.foldl_cons]; rw [← ih]; rfl
    simp only [key]
    refine ⟨?_, by simp, a4, a5, a6, a3, a7, a8⟩
    exact { a1 with
      pend := by simp
      closed := by
        intro i hi z hz
        rcases a1.closed i hi z hz with h' | h'
        · refine .inr fun w hw => ?_
          rw [a2, hp] at h'
          obtain rfl := Option.some.inj h'
          simp only [a3]
          exact List.mem_append_right _ hw
        · exact .inr h' }

theorem lookup_keys {l : List (Nat × D)} {i : Nat} (h : i ∈ l.map Prod.fst) : ∃ d, l.lookup i = some d ∧ (i, d) ∈ l := by
  induction l with
  | nil => simp at h
  | cons a l ih =>
    obtain ⟨j, d⟩ := a
    by_cases e : i = j
    · subst e; exact ⟨d, by simp, by simp⟩
    · have hb : (i == j) = false := by simpa using e
      simp only [List.map_cons, List.mem_cons] at h
      obtain ⟨d', h1, h2⟩ := ih (h.resolve_left e)
      exact ⟨d', by simp [List.lookup, hb, h1], by simp [h2]⟩

theorem lookup_mem {l : List (Nat × D)} {i : Nat} {d : D} (h : l.lookup i = some d) : i ∈ l.map Prod.fst := by
  induction l with
  | nil => simp at h
  | cons a l ih =>
    obtain ⟨j, e⟩ := a
    by_cases e : i = j
    · subst e; simp
    · have hb : (i == j) = false := by simpa using e
      simp only [List.lookup, hb] at h
      exact List.mem_cons_of_mem _ (ih h)

/-- what a pop does -/
theorem pop_spec (h : Inv g x s) (ha : s.agenda ≠ []) (c : Choice) :
    pop c s = .stuck ∨ ∃ i s', pop c s = .next (i, s') ∧ i ∈ s.fifo ∧ s' = { s with agenda := s.agenda.filter fun a => a.1 != i, fifo := s.fifo.erase i } ∧
      (c = .oldest → s.fifo.head? = some i) ∧ ∀ j, c = .greedy j → i = j ∧ ∃ y, s.states[i]? = some y ∧
        ∀ k ∈ s.fifo, ∀ z, s.states[k]? = some z → g.prio y ≤ g.prio z := by
  have nd : s.fifo.Nodup := h.sorted.imp (fun h => ne_of_lt h)
  cases c with
  | greedy i =>
    simp only [pop]
    cases hl : s.agenda.lookup i with
    | none => exact .inl rfl
    | some d =>
      simp only
      by_cases hall : (s.agenda.all fun a => decide (d ≤ a.2)) = true
      · rw [if_pos hall]
        have hi : i ∈ s.fifo := h.keys ▸ lookup_mem hl
        rw [if_pos hi]
        refine .inr ⟨i, _, rfl, hi, rfl, by simp, ?_⟩
        rintro j e
        obtain rfl := Choice.greedy.inj e
        refine ⟨rfl, ?_⟩
        obtain ⟨d', e1, e2⟩ := lookup_keys (h.keys ▸ hi : i ∈ s.agenda.map Prod.fst)
        obtain rfl := Option.some.inj (hl.symm.trans e1)
        obtain ⟨y, y1, y2⟩ := h.prios _ e2
        refine ⟨y, y1, fun k hk z hz => ?_⟩
        obtain ⟨b, hb, rfl⟩ := List.mem_map.1 (h.keys ▸ hk : k ∈ s.agenda.map Prod.fst)
        obtain ⟨z', z1, z2⟩ := h.prios b hb
        obtain rfl := Option.some.inj (z1.symm.trans hz)
        simp only [List.all_eq_true, decide_eq_true_eq] at hall
        have := hall b hb
        simp only at y2
        rwa [y2, z2] at this
      · exact .inl (if_neg hall)
  | oldest =>
    simp only [pop]
    cases hf : s.fifo with
    | nil =>
      have := h.keys
      rw [hf] at this
      exact absurd (List.map_eq_nil_iff.1 this) ha
    | cons i fs =>
      obtain ⟨d, e1, -⟩ := lookup_keys (i := i) (l := s.agenda) (by rw [h.keys, hf]; simp)
      simp only [e1]
      exact .inr ⟨i, _, rfl, by simp, by simp, by simp, by simp⟩

theorem filter_keys {l : List (Nat × D)} (i : Nat) : (l.filter fun a => a.1 != i).map Prod.fst = (l.map Prod.fst).filter (· != i) := by
  rw [List.filter_map]; rfl

/-- the verdict is the cached one, and a verdict in the cache stays -/
theorem verdict_spec (h : Inv g x s) {y : S} (hy : Gen g x y) :
    (verdict g s.cache (g.prog y)).2.lookup (g.key (g.prog y)) = some (verdict g s.cache (g.prog y)).1 ∧
    (∀ k b, s.cache.lookup k = some b → (verdict g s.cache (g.prog y)).2.lookup k = some b) ∧
    ∀ k b, (verdict g s.cache (g.prog y)).2.lookup k = some b → ∃ z, Gen g x z ∧ g.key (g.prog z) = k ∧ g.check (g.prog z) = b := by
  unfold verdict
  cases hl : s.cache.lookup (g.key (g.prog y)) with
  | some b => exact ⟨hl, fun _ _ h => h, h.cache⟩
  | none =>
    simp only
    refine ⟨by rw [List.lookup_append, hl]; simp, fun k b hk => by rw [List.lookup_append, hk]; rfl, fun k b hk => ?_⟩
    rw [List.lookup_append] at hk
    cases hk' : s.cache.lookup k with
    | some b' =>
      rw [hk'] at hk
      obtain rfl := Option.some.inj hk
      exact h.cache k _ hk'
    | none =>
      rw [hk'] at hk
      simp only [Option.none_or] at hk
      by_cases e : k = g.key (g.prog y)
      · subst e
        simp at hk
        exact ⟨y, hy, rfl, hk⟩
      · have hb : (k == g.key (g.prog y)) = false := by simpa using e
        simp [List.lookup, hb] at hk

/-- one round -/
theorem step_spec (h : Inv g x s) (c : Choice) :
    (∃ s', step g c s = .done s' ∧ s' = resume g s ∧ s'.fifo = []) ∨ step g c s = .stuck ∨
    ∃ s' i, step g c s = .next s' ∧ Inv g x s' ∧ (s'.states = (resume g s).states ∧
      ∀ y, (resume g s).states[i]? = some y → (verdict g (resume g s).cache (g.prog y)).1 = true → s'.pending = some y ∧ s'.yields = (resume g s).yields ++ [g.prog y]) ∧ s'.popped = s.popped ++ [i] ∧ s'.fifo = (resume g s).fifo.erase i ∧ i ∈ (resume g s).fifo ∧
      (c = .oldest → (resume g s).fifo.head? = some i) ∧ ∀ j, c = .greedy j → i = j ∧ ∃ y, (resume g s).states[i]? = some y ∧
        ∀ k ∈ (resume g s).fifo, ∀ z, (resume g s).states[k]? = some z → g.prio y ≤ g.prio z := by
  obtain ⟨hr, r2, r3, -, r5, -, r7, r8⟩ := h.resume
  set t := resume g s with ht
  unfold step
  simp only [← ht]
  by_cases ha : t.agenda = []
  · left
    refine ⟨t, if_pos ha, rfl, ?_⟩
    rw [← hr.keys, ha]; rfl
  · right
    rw [if_neg ha]
    rcases pop_spec hr ha c with hp | ⟨i, t', hp, hi, rfl, ho, hg⟩
    · left; rw [hp]
    · right
      rw [hp]
      simp only
      have hlt := hr.fifoLt hi
      obtain ⟨y, hy⟩ : ∃ y, t.states[i]? = some y := ⟨_, List.getElem?_eq_getElem hlt⟩
      have nd : t.fifo.Nodup := hr.sorted.imp (fun h => ne_of_lt h)
      have keys' : (t.agenda.filter fun a => a.1 != i).map Prod.fst = t.fifo.erase i := by
        rw [filter_keys, hr.keys, nd.erase_eq_filter]
      have perm' : ((t.popped ++ [i]) ++ t.fifo.erase i).Perm (List.range t.states.length) := by
        refine List.Perm.trans ?_ hr.perm
        rw [List.append_assoc]
        exact List.Perm.append_left _ (List.perm_cons_erase hi).symm
      have hip : i ∉ t.popped := by
        intro hm
        have := hr.perm.nodup_iff.2 List.nodup_range
        exact (List.nodup_append.1 this).2.2 i hm i hi rfl
      have hic : i ∉ t.chart := fun hm => hip (hr.chartPop hm)
      have hgy : Gen g x y := hr.gen y (List.mem_of_getElem? hy)
      unfold process
      simp only [hy]
      obtain ⟨v1, v2, v3⟩ := verdict_spec hr hgy
      set v := verdict g t.cache (g.prog y) with hv
      have chart' : (t.popped ++ [i]).filter (fun i => (t.states[i]?).any fun y => v.2.lookup (g.key (g.prog y)) == some true) =
          t.chart ++ if v.1 = true then [i] else [] := by
        rw [List.filter_append, hr.chart]
        congr 1
        · refine List.filter_congr fun k hk => ?_
          cases hz : t.states[k]? with
          | none => rfl
          | some z =>
            simp only [Option.any_some]
            obtain ⟨b, hb⟩ := Option.ne_none_iff_exists'.1 (hr.cached k hk z hz)
            rw [v2 _ _ hb, hb]
        · simp only [List.filter_cons, hy, Option.any_some, v1, List.filter_nil]
          cases v.1 <;> simp
      have cached' : ∀ k ∈ t.popped ++ [i], ∀ z, t.states[k]? = some z → v.2.lookup (g.key (g.prog z)) ≠ none := by
        intro k hk z hz
        simp only [List.mem_append, List.mem_singleton] at hk
        rcases hk with hk | rfl
        · obtain ⟨b, hb⟩ := Option.ne_none_iff_exists'.1 (hr.cached k hk z hz)
          rw [v2 _ _ hb]; simp
        · obtain rfl := Option.some.inj (hy.symm.trans hz)
          rw [v1]; simp
      by_cases hc : v.1 = false
      · rw [if_pos hc]
        refine ⟨_, i, rfl, ?_, ⟨rfl, fun z hz hzv => ?_⟩, by rw [r3], rfl, hi, ho, hg⟩
        swap
        · obtain rfl := Option.some.inj (hy.symm.trans hz)
          rw [← hv, hc] at hzv; cases hzv
        exact { hr with
          keys := keys'
          sorted := hr.sorted.sublist (List.erase_sublist)
          perm := perm'
          prios := fun a ha => hr.prios a (List.mem_filter.1 ha).1
          cache := v3
          cached := cached'
          chart := by rw [chart', hc]; simp }
      · rw [if_neg hc, if_neg hic]
        have hc' : v.1 = true := by simpa using hc
        have hb : ∀ (b : P) (bc : D), bc = g.cost b → (b = g.prog x ∨ b ∈ t.yields ++ [g.prog y]) → bc ≤ g.cost (g.prog x) →
            (∀ p ∈ t.yields ++ [g.prog y], bc ≤ g.cost p) →
            Inv g x { t with popped := t.popped ++ [i], cache := v.2, chart := t.chart ++ [i], best := b, bestCost := bc, pending := some y,
                             yields := t.yields ++ [g.prog y], agenda := t.agenda.filter fun a => a.1 != i, fifo := t.fifo.erase i } := by
          intro b bc b1 b2 b3 b4
          exact {
            keys := keys'
            sorted := hr.sorted.sublist (List.erase_sublist)
            perm := perm'
            prios := fun a ha => hr.prios a (List.mem_filter.1 ha).1
            chart := by rw [chart', hc']; simp
            cache := v3
            cached := cached'
            yields := by simp only [List.map_append, hr.yields, List.map_cons, List.map_nil, hy, Option.map_some]
            bestCost := b1
            best := b2
            least := ⟨b3, b4⟩
            gen := hr.gen
            pend := by
              intro z hz
              obtain rfl := Option.some.inj hz
              rw [hc'] at v1
              obtain ⟨y', a, b, c⟩ := v3 _ _ v1
              exact ⟨hgy, y', a, b, c⟩
            closed := by
              intro k hk z hz
              simp only [List.mem_append, List.mem_singleton] at hk
              rcases hk with hk | rfl
              · rcases hr.closed k hk z hz with h' | h'
                · rw [r2] at h'; cases h'
                · exact .inr h'
              · exact .inl (by rw [← hz]; exact hy.symm ▸ rfl)
            start := hr.start }
        by_cases hlt : g.cost (g.prog y) < t.bestCost
        · rw [if_pos hlt]
          refine ⟨_, i, rfl, hb (g.prog y) _ rfl (.inr (by simp)) (le_trans hlt.le hr.least.1) ?_, ⟨rfl, fun z hz _ => ⟨hy.symm.trans hz, by rw [Option.some.inj (hy.symm.trans hz)]⟩⟩, by rw [r3], rfl, hi, ho, hg⟩
          intro p hp
          simp only [List.mem_append, List.mem_singleton] at hp
          rcases hp with hp | rfl
          · exact le_trans hlt.le (hr.least.2 p hp)
          · exact le_refl _
        · rw [if_neg hlt]
          refine ⟨_, i, rfl, hb t.best _ hr.bestCost ?_ hr.least.1 ?_, ⟨rfl, fun z hz _ => ⟨hy.symm.trans hz, by rw [Option.some.inj (hy.symm.trans hz)]⟩⟩, by rw [r3], rfl, hi, ho, hg⟩
          · exact hr.best.imp_right fun h => List.mem_append_left _ h
          · intro p hp
            simp only [List.mem_append, List.mem_singleton] at hp
            rcases hp with hp | rfl
            · exact hr.least.2 p hp
            · exact not_lt.1 hlt

theorem exec_spec : ∀ (cs : List Choice) (s : St S P K D), Inv g x s → exec g cs s ≠ .raised ∧ (∀ s', exec g cs s = .next s' → Inv g x s') ∧
    ∀ s', exec g cs s = .done s' → Inv g x s' ∧ s'.pending = none ∧ s'.fifo = []
  | [], s, h => ⟨by simp [exec], fun s' e => by simp only [exec, Out.next.injEq] at e; subst e; exact h, by simp [exec]⟩
  | c :: cs, s, h => by
    simp only [exec]
    rcases step_spec h c with ⟨s', e, rfl, e2⟩ | e | ⟨s', i, e, hi, -⟩
    · rw [e]
      refine ⟨by simp, by simp, fun s' e => ?_⟩
      obtain rfl := Out.done.inj e
      exact ⟨h.resume.1, h.resume.2.1, e2⟩
    · rw [e]; simp
    · rw [e]
      exact exec_spec cs s' hi

/-! ### C72 -/

/-- **C72 (no errors).**  However the choices fall, the search does not raise an exception: agenda and queue hold the same states. -/
theorem C72_no_error (g : Cfg S P K D) (x : S) (cs : List Choice) : exec g cs (init g x) ≠ .raised := (exec_spec cs _ init_inv).1

/-- **C72 (each state once).**  At any time the states that were pushed are those that were popped and those in the queue, each once;
each round pops one. -/
theorem C72_once (g : Cfg S P K D) (x : S) {cs : List Choice} {s : St S P K D} (h : After g x cs s) :
    (s.popped ++ s.fifo).Perm (List.range s.states.length) ∧ (s.agenda.map Prod.fst = s.fifo) ∧ s.popped.length = cs.length := by
  have hi := (exec_spec cs _ init_inv).2.1 s h
  refine ⟨hi.perm, hi.keys, ?_⟩
  have key : ∀ (cs : List Choice) (t s : St S P K D), Inv g x t → exec g cs t = .next s → s.popped.length = t.popped.length + cs.length := by
    intro cs
    induction cs with
    | nil => intro t s _ e; simp only [exec, Out.next.injEq] at e; subst e; simp
    | cons c cs ih =>
      intro t s ht e
      simp only [exec] at e
      rcases step_spec ht c with ⟨s', e1, -⟩ | e1 | ⟨s', i, e1, hi, -, e2, -⟩
      · rw [e1] at e; cases e
      · rw [e1] at e; cases e
      · rw [e1] at e
        rw [ih s' s hi e, e2]
        simp; omega
  have := key cs _ s init_inv h
  simpa [init, update] using this

/-- **C72 (the best).**  At any time, `_best` is the program of the root or one of those yielded, its cost is `_best_cost`, and none of
them costs less. -/
theorem C72_best (g : Cfg S P K D) (x : S) {cs : List Choice} {s : St S P K D} (h : After g x cs s) :
    s.best ∈ g.prog x :: s.yields ∧ s.bestCost = g.cost s.best ∧ ∀ p ∈ g.prog x :: s.yields, g.cost s.best ≤ g.cost p := by
  have hi := (exec_spec cs _ init_inv).2.1 s h
  refine ⟨?_, hi.bestCost, ?_⟩
  · rcases hi.best with h | h
    · rw [h]; simp
    · exact List.mem_cons_of_mem _ h
  · intro p hp
    rw [← hi.bestCost]
    rcases List.mem_cons.1 hp with rfl | hp
    · exact hi.least.1
    · exact hi.least.2 p hp

theorem Inv.inChart (h : Inv g x s) {i : Nat} (hi : i ∈ s.chart) {y : S} (hy : s.states[i]? = some y) : Passes g x y := by
  rw [h.chart] at hi
  obtain ⟨hi, hc⟩ := List.mem_filter.1 hi
  rw [hy] at hc
  simp only [Option.any_some, beq_iff_eq] at hc
  exact ⟨h.gen y (List.mem_of_getElem? hy), h.cache _ _ hc⟩

theorem Inv.yielded (h : Inv g x s) {p : P} (hp : p ∈ s.yields) : ∃ y, Passes g x y ∧ p = g.prog y := by
  have : some p ∈ s.yields.map some := List.mem_map_of_mem hp
  rw [h.yields] at this
  obtain ⟨i, hi, e⟩ := List.mem_map.1 this
  obtain ⟨y, hy, rfl⟩ := Option.map_eq_some_iff.1 e
  exact ⟨y, h.inChart hi hy, rfl⟩

/-- **C72 (soundness).**  Only programs are yielded that moves generate from the root, and that equal a generated program that passes the check;
so the result is the program of the root or such a program, and has every property that equal programs share, that the root has, and that passing
the check guarantees for generated programs. -/
theorem C72_sound (g : Cfg S P K D) (x : S) {cs : List Choice} {s : St S P K D} (h : After g x cs s) :
    (∀ p ∈ s.yields, ∃ y, Passes g x y ∧ p = g.prog y) ∧
    ∀ Q : P → Prop, (∀ p q, g.key p = g.key q → Q p → Q q) → Q (g.prog x) → (∀ y, Gen g x y → g.check (g.prog y) = true → Q (g.prog y)) →
      Q s.best ∧ ∀ p ∈ s.yields, Q p := by
  have hi := (exec_spec cs _ init_inv).2.1 s h
  refine ⟨fun p hp => hi.yielded hp, fun Q h0 h1 h2 => ?_⟩
  have : ∀ p ∈ s.yields, Q p := by
    intro p hp
    obtain ⟨y, ⟨-, y', a, b, c⟩, rfl⟩ := hi.yielded hp
    exact h0 _ _ b (h2 y' a c)
  refine ⟨?_, this⟩
  rcases hi.best with h | h
  · rw [h]; exact h1
  · exact this _ h

/-- **C72 (exhaustive).**  If the check treats equal programs alike and the search ends, it has yielded exactly the generated programs that pass the
check, and the result costs no more than any of them. -/
theorem C72_exhaustive (g : Cfg S P K D) (x : S) (hk : ∀ y z, Gen g x y → Gen g x z → g.key (g.prog y) = g.key (g.prog z) → g.check (g.prog y) = g.check (g.prog z))
    {cs : List Choice} {s : St S P K D} (h : Ended g x cs s) :
    (∀ p, p ∈ s.yields ↔ ∃ y, Gen g x y ∧ g.check (g.prog y) = true ∧ p = g.prog y) ∧
    ∀ y, Gen g x y → g.check (g.prog y) = true → g.cost s.best ≤ g.cost (g.prog y) := by
  obtain ⟨hi, hp, hf⟩ := (exec_spec cs _ init_inv).2.2 s h
  have inChart : ∀ y ∈ s.states, g.check (g.prog y) = true → ∃ i ∈ s.chart, s.states[i]? = some y := by
    intro y hy hc
    obtain ⟨i, hiy⟩ := List.mem_iff_getElem?.1 hy
    have hlt := (List.getElem?_eq_some_iff.1 hiy).1
    have hpop : i ∈ s.popped := by
      have := hi.perm.mem_iff.2 (List.mem_range.2 hlt)
      rw [hf, List.append_nil] at this
      exact this
    refine ⟨i, ?_, hiy⟩
    rw [hi.chart, List.mem_filter, hiy]
    refine ⟨hpop, ?_⟩
    obtain ⟨b, hb⟩ := Option.ne_none_iff_exists'.1 (hi.cached i hpop y hiy)
    obtain ⟨z, z1, z2, z3⟩ := hi.cache _ _ hb
    rw [hk z y z1 (hi.gen y hy) z2, hc] at z3
    subst z3
    simp [hb]
  have all : ∀ y, Gen g x y → y ∈ s.states := by
    intro y hy
    induction hy with
    | root => exact hi.start
    | move hy hy' he hc hz ih _ =>
      obtain ⟨i, h1, h2⟩ := inChart _ ih ((hk _ _ hy' hy he).symm.trans hc)
      rcases hi.closed i h1 _ h2 with h' | h'
      · rw [hp] at h'; cases h'
      · exact h' _ hz
  have mem : ∀ y, Gen g x y → g.check (g.prog y) = true → g.prog y ∈ s.yields := by
    intro y hy hc
    obtain ⟨i, h1, h2⟩ := inChart y (all y hy) hc
    have : some (g.prog y) ∈ s.yields.map some := by
      rw [hi.yields]
      exact List.mem_map.2 ⟨i, h1, by rw [h2]; rfl⟩
    obtain ⟨p, hp, e⟩ := List.mem_map.1 this
    rw [← Option.some.inj e]
    exact hp
  refine ⟨fun p => ⟨fun hp => ?_, ?_⟩, fun y hy hc => ?_⟩
  · obtain ⟨y, ⟨a, y', b, c, d⟩, rfl⟩ := hi.yielded hp
    exact ⟨y, a, (hk _ _ b a c).symm.trans d, rfl⟩
  · rintro ⟨y, a, b, rfl⟩
    exact mem y a b
  · rw [← hi.bestCost]
    exact hi.least.2 _ (mem y hy hc)

/-- how often the oldest state is popped -/
def olds : List Choice → Nat
  | [] => 0
  | .oldest :: cs => olds cs + 1
  | _ :: cs => olds cs

theorem fair_aux : ∀ (cs : List Choice) (s s' : St S P K D), Inv g x s → exec g cs s = .next s' → ∀ (a b : List Nat) (i : Nat),
    s.fifo = a ++ i :: b → a.length < olds cs → i ∈ s'.popped
  | [], s, s', _, _, a, b, i, _, hl => by simp [olds] at hl
  | c :: cs, s, s', h, e, a, b, i, hf, hl => by
    simp only [exec] at e
    obtain ⟨hr, -, r3, r4, -⟩ := h.resume
    generalize List.range' s.states.length (driven g s).length = l at r4
    rcases step_spec h c with ⟨t, e1, -⟩ | e1 | ⟨t, k, e1, hi, -, e2, e3, e4, e5, -⟩
    · rw [e1] at e; cases e
    · rw [e1] at e; cases e
    · rw [e1] at e
      simp only at e
      rw [r4, hf] at e3 e5
      -- once popped, always popped
      have stay : ∀ (cs : List Choice) (t s' : St S P K D), Inv g x t → exec g cs t = .next s' → ∀ j ∈ t.popped, j ∈ s'.popped := by
        intro cs
        induction cs with
        | nil => intro t s' _ e j hj; simp only [exec, Out.next.injEq] at e; subst e; exact hj
        | cons c cs ih =>
          intro t s' ht e j hj
          simp only [exec] at e
          rcases step_spec ht c with ⟨u, e1, -⟩ | e1 | ⟨u, k, e1, hi, -, e2, -⟩
          · rw [e1] at e; cases e
          · rw [e1] at e; cases e
          · rw [e1] at e
            exact ih u s' hi e j (by rw [e2]; exact List.mem_append_left _ hj)
      by_cases hk : k = i
      · subst hk
        exact stay cs t s' hi e k (by rw [e2]; simp)
      · have nd : (a ++ i :: b ++ l).Nodup := by
          rw [← hf, ← r4]; exact hr.sorted.imp fun h => ne_of_lt h
        cases c with
        | oldest =>
          simp only [olds] at hl
          cases a with
          | nil =>
            have := e5 rfl
            simp at this
            exact absurd this.symm hk
          | cons a0 a =>
            have := e5 rfl
            simp at this
            subst this
            refine fair_aux cs t s' hi e a (b ++ l) i ?_ (by simp at hl; omega)
            rw [e3]; simp
        | greedy j =>
          simp only [olds] at hl
          by_cases hka : k ∈ a
          · refine fair_aux cs t s' hi e (a.erase k) (b ++ l) i ?_ (lt_of_le_of_lt (List.length_erase_le) hl)
            rw [e3, List.append_assoc, List.erase_append_left _ hka]; simp
          · refine fair_aux cs t s' hi e a ((b ++ l).erase k) i ?_ hl
            rw [e3, List.append_assoc, List.erase_append_right _ hka]
            simp only [List.cons_append]
            rw [List.erase_cons_tail (by simpa using fun e => hk e.symm)]

/-- **C72 (fairness).**  A state with `n` states before it in the queue is popped by the time the oldest has been popped `n + 1` times; so is
state number `n`, whatever is pushed in between. -/
theorem C72_fair (g : Cfg S P K D) (x : S) {cs cs' : List Choice} {s s' : St S P K D} (h : After g x cs s) (h' : exec g cs' s = .next s') {i : Nat}
    (hi : i ∈ s.fifo) : (s.fifo.idxOf i < olds cs' → i ∈ s'.popped) ∧ (i < olds cs' → i ∈ s'.popped) := by
  have inv := (exec_spec cs _ init_inv).2.1 s h
  have e : s.fifo = s.fifo.take (s.fifo.idxOf i) ++ i :: s.fifo.drop (s.fifo.idxOf i + 1) := by
    have hlt := List.idxOf_lt_length_iff.2 hi
    have e1 := List.take_append_drop (s.fifo.idxOf i) s.fifo
    rw [List.drop_eq_getElem_cons hlt, List.getElem_idxOf] at e1
    exact e1.symm
  have h1 : s.fifo.idxOf i < olds cs' → i ∈ s'.popped := fun hl =>
    fair_aux cs' s s' inv h' _ _ i e (lt_of_le_of_lt (by simp) hl)
  refine ⟨h1, fun hl => h1 (lt_of_le_of_lt ?_ hl)⟩
  -- an increasing sequence of numbers
  have key : ∀ (l : List Nat) (m : Nat), l.Pairwise (· < ·) → (∀ j ∈ l, m ≤ j) → ∀ i ∈ l, m + l.idxOf i ≤ i := by
    intro l
    induction l with
    | nil => simp
    | cons a l ih =>
      intro m hp hm i hi
      rw [List.pairwise_cons] at hp
      by_cases ha : a = i
      · subst ha; simpa using hm a (by simp)
      · rw [List.idxOf_cons_ne _ ha]
        have := ih (m + 1) hp.2 (fun j hj => lt_of_le_of_lt (hm a (by simp)) (hp.1 j hj)) i ((List.mem_cons.1 hi).resolve_left (Ne.symm ha))
        omega
  simpa using key s.fifo 0 inv.sorted (by simp) i hi

theorem exec_append (g : Cfg S P K D) : ∀ (a b : List Choice) (s : St S P K D), exec g (a ++ b) s = match exec g a s with
    | .next s => exec g b s
    | o => o
  | [], b, s => by simp [exec]
  | c :: a, b, s => by
    simp only [List.cons_append, exec]
    cases step g c s with
    | next t => exact exec_append g a b t
    | done t => rfl
    | stuck => rfl
    | raised => rfl

theorem exists_least : ∀ {l : List (Nat × D)}, l ≠ [] → ∃ a ∈ l, ∀ b ∈ l, a.2 ≤ b.2
  | [], h => absurd rfl h
  | [a], _ => ⟨a, by simp, by simp⟩
  | a :: b :: l, _ => by
    obtain ⟨c, hc, hm⟩ := exists_least (l := b :: l) (by simp)
    rcases le_total a.2 c.2 with h | h
    · exact ⟨a, by simp, fun d hd => (List.mem_cons.1 hd).elim (fun e => e ▸ le_refl _) fun hd => le_trans h (hm d hd)⟩
    · exact ⟨c, List.mem_cons_of_mem _ hc, fun d hd => (List.mem_cons.1 hd).elim (fun e => e ▸ h) fun hd => hm d hd⟩

/-- a greedy round is possible as long as the queue is not empty -/
theorem greedy_round (h : Inv g x s) (hf : (resume g s).fifo ≠ []) : ∃ j s', step g (.greedy j) s = .next s' := by
  obtain ⟨hr, -⟩ := h.resume
  have ha : (resume g s).agenda ≠ [] := fun e => hf (by rw [← hr.keys, e]; rfl)
  obtain ⟨a, ham, hmin⟩ := exists_least ha
  have hk : a.1 ∈ (resume g s).fifo := hr.keys ▸ List.mem_map_of_mem ham
  obtain ⟨d, d1, d2⟩ := lookup_keys (List.mem_map_of_mem (f := Prod.fst) ham)
  have hd : d = a.2 := by
    obtain ⟨y, y1, y2⟩ := hr.prios _ d2
    obtain ⟨z, z1, z2⟩ := hr.prios _ ham
    obtain rfl := Option.some.inj (y1.symm.trans z1)
    rw [z2]; exact y2
  have hp : pop (.greedy a.1) (resume g s) ≠ .stuck := by
    simp only [pop, d1]
    rw [if_pos (by simpa [hd] using fun b c hb => hmin (b, c) hb), if_pos hk]
    simp
  refine ⟨a.1, ?_⟩
  rcases step_spec h (.greedy a.1) with ⟨t, -, rfl, e2⟩ | e1 | ⟨t, i, e1, -⟩
  · exact absurd e2 hf
  · exfalso
    rcases pop_spec hr ha (.greedy a.1) with h' | ⟨i, t, h', hi, rfl, -⟩
    · exact hp h'
    · unfold step at e1
      simp only [if_neg ha, h', process] at e1
      split at e1
      · cases e1
      · split at e1 <;> cases e1
  · exact ⟨t, e1⟩

/-- **C72 (order).**  A round pops, of the states that were not popped yet, one of the least priority, or the one that was pushed first. -/
theorem C72_order (g : Cfg S P K D) (x : S) {cs : List Choice} {c : Choice} {s s' : St S P K D} (h : After g x cs s) (h' : step g c s = .next s') :
    ∃ i y, s'.popped = s.popped ++ [i] ∧ s'.states[i]? = some y ∧ (c = .oldest → ∀ k ∈ s'.fifo, i < k) ∧
      ∀ j, c = .greedy j → i = j ∧ ∀ k ∈ s'.fifo, ∀ z, s'.states[k]? = some z → g.prio y ≤ g.prio z := by
  have inv := (exec_spec cs _ init_inv).2.1 s h
  obtain ⟨hr, -⟩ := inv.resume
  rcases step_spec inv c with ⟨t, e1, -⟩ | e1 | ⟨t, i, e1, hi, ⟨st, -⟩, e2, e3, e4, e5, e6⟩
  · rw [e1] at h'; cases h'
  · rw [e1] at h'; cases h'
  · obtain rfl := Out.next.inj (e1.symm.trans h')
    obtain ⟨y, hy⟩ : ∃ y, t.states[i]? = some y := ⟨_, List.getElem?_eq_getElem (st ▸ hr.fifoLt e4)⟩
    refine ⟨i, y, e2, hy, fun hc k hk => ?_, fun j hj => ?_⟩
    · have := e5 hc
      cases hf : (resume g s).fifo with
      | nil => rw [hf] at this; simp at this
      | cons a l =>
        rw [hf] at this e3
        simp only [List.head?_cons, Option.some.injEq] at this
        subst this
        rw [List.erase_cons_head] at e3
        rw [e3] at hk
        have hs := hr.sorted
        rw [hf, List.pairwise_cons] at hs
        exact hs.1 k hk
    · obtain ⟨e, y', h1, h2⟩ := e6 j hj
      refine ⟨e, fun k hk z hz => ?_⟩
      rw [st] at hy hz
      obtain rfl := Option.some.inj (hy.symm.trans h1)
      exact h2 k (List.mem_of_mem_erase (e3 ▸ hk)) z hz

end

/-! ### C72: witnesses -/

/-- a search with one good state, number 1, that is never of the least priority -/
def starve : Cfg Nat Nat Nat Nat := ⟨id, fun n => if n = 1 then 1 else 0, fun n => if n = 1 then 0 else 1, id, fun _ => true,
  fun n => if n = 0 then [1, 2] else if n = 2 then [2] else []⟩

/-- the state after `n ≥ 1` greedy rounds -/
structure Starving (s : St Nat Nat Nat Nat) : Prop where
  inv : Inv starve 0 s
  not : 1 ∉ s.popped
  notY : 1 ∉ s.yields
  pend : s.pending = some 0 ∨ s.pending = some 2
  one : s.states[1]? = some 1 ∨ s.states = [0] ∧ s.pending = some 0

theorem gen_starve {y : Nat} (h : Gen starve 0 y) : y = 0 ∨ y = 1 ∨ y = 2 := by
  induction h with
  | root => simp
  | move _ _ _ _ hz _ _ =>
    simp only [starve] at hz
    split at hz
    · simp at hz; omega
    · split at hz <;> simp at hz
      omega


theorem verdict_starve (h : Inv starve 0 s) (y : Nat) : (verdict starve s.cache y).1 = true := by
  unfold verdict
  cases hl : s.cache.lookup (starve.key y) with
  | none => rfl
  | some b =>
    obtain ⟨z, -, -, e⟩ := h.cache _ _ hl
    exact e.symm

theorem Starving.step {s : St Nat Nat Nat Nat} (h : Starving s) {j : Nat} {s' : St Nat Nat Nat Nat} (e : step starve (.greedy j) s = .next s') :
    Starving s' := by
  obtain ⟨hr, r2, r3, r4, r5, r6, r7, r8⟩ := h.inv.resume
  -- number 1 is state 1, and there is another state of priority 0
  have key : (resume starve s).states[1]? = some 1 ∧ ∃ k, k ≠ 1 ∧ k ∈ (resume starve s).fifo ∧ (resume starve s).states[k]? = some 2 := by
    rw [r6, r4]
    rcases h.pend with hp | hp
    · have hd : driven starve s = [1, 2] := by simp [driven, hp, starve]
      rw [hd]
      rcases h.one with ho | ⟨ho, -⟩
      · have hl : 1 < s.states.length := (List.getElem?_eq_some_iff.1 ho).1
        refine ⟨by rw [List.getElem?_append_left hl]; exact ho, s.states.length + 1, by omega, by simp [List.range'], by simp⟩
      · rw [ho]
        exact ⟨by simp, 2, by simp, by simp [List.range'], by simp⟩
    · have hd : driven starve s = [2] := by simp [driven, hp, starve]
      rw [hd]
      rcases h.one with ho | ⟨-, ho⟩
      · have hl : 1 < s.states.length := (List.getElem?_eq_some_iff.1 ho).1
        exact ⟨by rw [List.getElem?_append_left hl]; exact ho, s.states.length, by omega, by simp [List.range'], by simp⟩
      · rw [hp] at ho; cases ho
  obtain ⟨h1, k, -, hk, hk2⟩ := key
  rcases step_spec h.inv (.greedy j) with ⟨t, e1, -⟩ | e1 | ⟨t, i, e1, hi, ⟨st, pe⟩, e2, e3, e4, e5, e6⟩
  · rw [e1] at e; cases e
  · rw [e1] at e; cases e
  · obtain rfl := Out.next.inj (e1.symm.trans e)
    obtain ⟨-, y, hy, hmin⟩ := e6 j rfl
    have hp0 : starve.prio y ≤ 0 := hmin k hk 2 hk2
    have hy1 : y ≠ 1 := by rintro rfl; simp [starve] at hp0
    have hi1 : i ≠ 1 := by rintro rfl; exact hy1 (Option.some.inj (hy.symm.trans h1))
    obtain ⟨hpe, hye⟩ := pe y hy (verdict_starve hr _)
    refine ⟨hi, ?_, ?_, ?_, .inl (st ▸ h1)⟩
    · rw [e2]
      simp only [List.mem_append, List.mem_singleton, not_or]
      exact ⟨h.not, fun e => hi1 e.symm⟩
    · rw [hye, r8]
      simp only [List.mem_append, List.mem_singleton, not_or]
      exact ⟨h.notY, fun e => hy1 e.symm⟩
    · rw [hpe]
      rcases gen_starve (hr.gen y (List.mem_of_getElem? hy)) with rfl | rfl | rfl
      · exact .inl rfl
      · exact absurd rfl hy1
      · exact .inr rfl

theorem starving_exec : ∀ (cs : List Choice) (s s' : St Nat Nat Nat Nat), Starving s → (∀ c ∈ cs, c ≠ .oldest) → exec starve cs s = .next s' → Starving s'
  | [], s, s', h, _, e => by simp only [exec, Out.next.injEq] at e; subst e; exact h
  | c :: cs, s, s', h, hc, e => by
    simp only [exec] at e
    cases hs : step starve c s with
    | next t =>
      rw [hs] at e
      cases c with
      | greedy j => exact starving_exec cs t s' (h.step hs) (fun d hd => hc d (List.mem_cons_of_mem _ hd)) e
      | oldest => exact absurd rfl (hc _ (by simp))
    | done t => rw [hs] at e; cases e
    | stuck => rw [hs] at e; cases e
    | raised => rw [hs] at e; cases e

/-- **C72 (greedy search starves).**  Without pops of the oldest state (`p_greedy = 1`), a search can run for ever and never pop a state, although its
program is the best: however many rounds it makes, state 1 is not popped, and there is a next round. -/
theorem C72_starves : (∀ cs s, (∀ c ∈ cs, c ≠ .oldest) → After starve 0 cs s → 1 ∉ s.popped ∧ s.best ≠ 1) ∧
    (∀ n, ∃ cs s, cs.length = n ∧ (∀ c ∈ cs, c ≠ .oldest) ∧ After starve 0 cs s) ∧
    Passes starve 0 1 ∧ ∀ y, y ≠ 1 → starve.cost 1 < starve.cost y := by
  have first : ∀ j s, Search.step starve (.greedy j) (init starve 0) = .next s → Starving s := by
    intro j s e
    have hj : j = 0 := by
      by_contra hj
      have hb : (j == 0) = false := by simpa using hj
      simp [Search.step, Search.resume, init, update, pop, List.lookup, hb] at e
    subst hj
    obtain rfl := Out.next.inj ((show Search.step starve (.greedy 0) (init starve 0) = .next ⟨[0], [], [], [0], 0, 1, [0], some 0, [0], [(0, true)]⟩ from rfl).symm.trans e)
    have hi := (exec_spec [.greedy 0] _ init_inv).2.1 _ (show exec starve [.greedy 0] (init starve 0) = _ from rfl)
    exact ⟨hi, by decide, by decide, .inl rfl, .inr ⟨rfl, rfl⟩⟩
  have all : ∀ cs s, (∀ c ∈ cs, c ≠ .oldest) → After starve 0 cs s → cs ≠ [] → Starving s := by
    intro cs s hc h hn
    cases cs with
    | nil => exact absurd rfl hn
    | cons c cs =>
      cases c with
      | oldest => exact absurd rfl (hc _ (by simp))
      | greedy j =>
        simp only [After, exec] at h
        cases hs : Search.step starve (.greedy j) (init starve 0) with
        | next t =>
          rw [hs] at h
          exact starving_exec cs t s (first j t hs) (fun d hd => hc d (List.mem_cons_of_mem _ hd)) h
        | done t => rw [hs] at h; cases h
        | stuck => rw [hs] at h; cases h
        | raised => rw [hs] at h; cases h
  refine ⟨fun cs s hc h => ?_, fun n => ?_, ?_, fun y hy => by simp [starve, hy]⟩
  · by_cases hn : cs = []
    · subst hn
      obtain rfl := Out.next.inj h
      decide
    · have hs := all cs s hc h hn
      refine ⟨hs.not, fun e => ?_⟩
      have := (C72_best starve 0 h).1
      rw [e] at this
      rcases List.mem_cons.1 this with h | h
      · cases h
      · exact hs.notY h
  · induction n with
    | zero => exact ⟨[], _, rfl, by simp, rfl⟩
    | succ n ih =>
      obtain ⟨cs, s, rfl, hc, h⟩ := ih
      have inv := (exec_spec cs _ init_inv).2.1 s h
      have ne : (Search.resume starve s).fifo ≠ [] := by
        by_cases hn : cs = []
        · subst hn
          obtain rfl := Out.next.inj h
          decide
        · have hs := all cs s hc h hn
          rw [inv.resume.2.2.2.1]
          rcases hs.pend with hp | hp <;> simp [driven, hp, starve]
      obtain ⟨j, s', e⟩ := greedy_round inv ne
      refine ⟨cs ++ [.greedy j], s', by simp, ?_, ?_⟩
      · intro c hc'
        simp only [List.mem_append, List.mem_singleton] at hc'
        rcases hc' with hc' | rfl
        · exact hc c hc'
        · simp
      · rw [After, exec_append, h]
        simp [exec, e]
  · have h0 : Gen starve 0 0 := .root
    have h1 : Gen starve 0 1 := .move h0 h0 rfl rfl (by simp [starve])
    exact ⟨h1, 1, h1, rfl, rfl⟩

/-- verdicts of equal programs: `10` and `11` are equal programs, of which only `11` passes the check; `21` is like `10`, `20` like `11` -/
def conflate : Cfg Nat Nat Nat Nat := ⟨id, id, fun n => if n = 11 then 0 else n + 1, fun n => n / 10, fun n => n ≠ 10 ∧ n ≠ 21, fun n => if n = 0 then [10, 11, 20, 21] else []⟩

/-- **C72 (the cache).**  If the check does not treat equal programs alike, as with `check_measure`, which looks at the transformations a program comes from, its
cache makes the search yield a program that does not pass the check itself, and miss one that does and costs less. -/
theorem C72_cache : ∃ cs s, Ended conflate 0 cs s ∧
    (∃ p ∈ s.yields, conflate.check p = false) ∧ ∃ p, conflate.check p = true ∧ Gen conflate 0 p ∧ p ∉ s.yields ∧ conflate.cost p < conflate.cost s.best := by
  refine ⟨[.oldest, .oldest, .oldest, .oldest, .oldest, .oldest], _, rfl, ⟨21, by decide, rfl⟩, 11, rfl, ?_, by decide, by decide⟩
  exact .move .root .root rfl rfl (by simp [conflate])

/-! ### C72: examples -/

/-- a search over the numbers up to 6: from `n` to `2 n` and `2 n + 1`; the cost has its least at 5, and 3 does not pass the check -/
def demo : Cfg Nat Nat Nat Nat := ⟨id, fun n => 10 - n, fun n => (n - 5) + (5 - n), id, fun n => n ≠ 3, fun n => if n < 4 then [2 * n, 2 * n + 1] else []⟩

/-- greedy and oldest pops; the state that does not pass is not yielded and not driven -/
def demoEnd : St Nat Nat Nat Nat := ⟨[1, 2, 3, 4, 5], [], [], [0, 1, 4, 3], 5, 0, [0, 1, 4, 3, 2], none, [1, 2, 5, 4], [(1, true), (2, true), (5, true), (4, true), (3, false)]⟩

theorem demo_ends : Ended demo 1 [.greedy 0, .oldest, .greedy 4, .greedy 3, .oldest, .oldest] demoEnd := rfl

example : ∀ y z, Gen demo 1 y → Gen demo 1 z → demo.key (demo.prog y) = demo.key (demo.prog z) → demo.check (demo.prog y) = demo.check (demo.prog z) := by
  intro y z _ _ e
  have : y = z := e
  rw [this]

/-- the result of the search, by the theorem: 5 has the least cost of all programs that are generated and pass -/
example : ∀ y, Gen demo 1 y → demo.check y = true → demo.cost 5 ≤ demo.cost y :=
  (C72_exhaustive demo 1 (fun y z _ _ e => by have : y = z := e; rw [this])
    demo_ends).2

/-- a wrong choice is no step, and an unfinished search can be resumed -/
example : exec demo [.greedy 0, .greedy 1] (init demo 1) = .stuck := rfl
example : ∃ s, After demo 1 [.greedy 0, .oldest] s ∧ s.fifo = [2] ∧ s.best = 2 ∧ s.pending = some 2 := ⟨_, rfl, rfl, rfl, rfl⟩

/-! ### Beam search -/

section
variable {S P D : Type} [LinearOrder D]

/-- the states that actions reach from `x` -/
inductive Reach (g : BCfg S P D) (x : S) : S → Prop
  | root : Reach g x x
  | move {y z : S} : Reach g x y → z ∈ g.succ y → Reach g x z

/-- `o` is the first entry of the least cost -/
def First (log : List (P × D)) (o : Option (P × D)) : Prop :=
  (log = [] ∧ o = none) ∨ ∃ a e b, log = a ++ e :: b ∧ o = some e ∧ (∀ u ∈ a, e.2 < u.2) ∧ ∀ u ∈ b, e.2 ≤ u.2

/-- the states at depth `n`, with repetitions -/
def level (g : BCfg S P D) (x : S) : Nat → List S
  | 0 => [x]
  | n + 1 => (level g x n).flatMap g.succ

variable {g : BCfg S P D} {x : S}

def entry (g : BCfg S P D) (y : S) : P × D := (g.prog y, g.cost (g.prog y))

theorem First.add {log : List (P × D)} {o : Option (P × D)} (h : First log o) (e : P × D) :
    First (log ++ [e]) (match (generalizing := false) o with | none => some e | some b => if e.2 < b.2 then some e else some b) := by
  rcases h with ⟨rfl, rfl⟩ | ⟨a, u, b, rfl, rfl, h1, h2⟩
  · exact .inr ⟨[], e, [], by simp, rfl, by simp, by simp⟩
  · by_cases hlt : e.2 < u.2
    · refine .inr ⟨a ++ u :: b, e, [], by simp, by simp [hlt], ?_, by simp⟩
      intro v hv
      simp only [List.mem_append, List.mem_cons] at hv
      rcases hv with hv | rfl | hv
      · exact hlt.trans (h1 v hv)
      · exact hlt
      · exact lt_of_lt_of_le hlt (h2 v hv)
    · refine .inr ⟨a, u, b ++ [e], by simp, by simp [hlt], h1, ?_⟩
      intro v hv
      simp only [List.mem_append, List.mem_singleton] at hv
      rcases hv with hv | rfl
      · exact h2 v hv
      · exact not_lt.1 hlt

/-- one evaluation -/
theorem objective_spec {s : BSt P D} (h : First s.log s.best) (y : S) :
    First (objective g (g.prog y) s).1.log (objective g (g.prog y) s).1.best ∧ (objective g (g.prog y) s).1.log = s.log ++ [entry g y] ∧
    ((objective g (g.prog y) s).2 = none → (s.log.length + 1 < g.reps ∧ g.optimal (g.prog y) (g.cost (g.prog y)) = false)) ∧
    ∀ e, (objective g (g.prog y) s).2 = some e → (e = .oracle ∧ g.optimal (g.prog y) (g.cost (g.prog y)) = true) ∨
      (e = .noMoreEvals ∧ g.reps ≤ s.log.length + 1 ∧ g.optimal (g.prog y) (g.cost (g.prog y)) = false) := by
  refine ⟨?_, rfl, ?_, ?_⟩
  · have := h.add (entry g y)
    simp only [objective]
    cases hb : s.best with
    | none => rw [hb] at this; exact this
    | some b => rw [hb] at this; exact this
  · simp only [objective, List.length_append, List.length_singleton]
    by_cases ho : g.optimal (g.prog y) (g.cost (g.prog y)) = true
    · rw [if_pos ho]; simp
    · rw [if_neg ho]
      by_cases hr : g.reps ≤ s.log.length + 1
      · rw [if_pos hr]; simp
      · rw [if_neg hr]
        exact fun _ => ⟨by omega, by simpa using ho⟩
  · simp only [objective, List.length_append, List.length_singleton]
    intro e
    by_cases ho : g.optimal (g.prog y) (g.cost (g.prog y)) = true
    · rw [if_pos ho]
      intro e'
      exact .inl ⟨(Option.some.inj e').symm, ho⟩
    · rw [if_neg ho]
      by_cases hr : g.reps ≤ s.log.length + 1
      · rw [if_pos hr]
        intro e'
        exact .inr ⟨(Option.some.inj e').symm, hr, by simpa using ho⟩
      · rw [if_neg hr]; simp

/-- what has happened when the search stops for the reason `e`: the last evaluation -/
def Stopped (g : BCfg S P D) (log : List (P × D)) (e : Stop) : Prop :=
  ∃ l y, log = l ++ [entry g y] ∧ ((e = .oracle ∧ g.optimal (g.prog y) (g.cost (g.prog y)) = true) ∨ (e = .noMoreEvals ∧ g.reps ≤ log.length))

theorem evalAll_spec : ∀ (ys : List S) (s : BSt P D), First s.log s.best →
    ∃ k, k ≤ ys.length ∧ (evalAll g ys s).1.log = s.log ++ (ys.take k).map (entry g) ∧ First (evalAll g ys s).1.log (evalAll g ys s).1.best ∧
      (∀ b, (evalAll g ys s).2 = .inr b → k = ys.length ∧ b = ys.map (fun y => (g.cost (g.prog y), y)) ∧ (ys = [] ∨ (evalAll g ys s).1.log.length < g.reps)) ∧
      ∀ e, (evalAll g ys s).2 = .inl e → 0 < k ∧ Stopped g (evalAll g ys s).1.log e ∧ (s.log.length + k ≤ max (s.log.length + 1) g.reps)
  | [], s, h => ⟨0, le_refl _, by simp [evalAll], by simpa [evalAll] using h, by simp [evalAll], by simp [evalAll]⟩
  | y :: ys, s, h => by
    obtain ⟨o1, o2, o3, o4⟩ := objective_spec (g := g) h y
    rcases ho : objective g (g.prog y) s with ⟨s', o⟩
    rw [ho] at o1 o2 o3 o4
    simp only at o1 o2 o3 o4
    cases o with
    | some e =>
      have e1 : evalAll g (y :: ys) s = (s', .inl e) := by simp [evalAll, ho]
      refine ⟨1, by simp, ?_, ?_, ?_, ?_⟩ <;> rw [e1]
      · simp [o2]
      · exact o1
      · simp
      · intro e' he
        obtain rfl := Sum.inl.inj he
        refine ⟨by simp, ⟨s.log, y, o2, ?_⟩, le_max_left _ _⟩
        rcases o4 e rfl with h' | h'
        · exact .inl h'
        · refine .inr ⟨h'.1, ?_⟩
          simp only [o2, List.length_append, List.length_singleton]
          exact h'.2.1
    | none =>
      obtain ⟨o3, -⟩ := o3 rfl
      obtain ⟨k, k1, k2, k3, k4, k5⟩ := evalAll_spec ys s' o1
      rcases he : evalAll g ys s' with ⟨s'', r⟩
      rw [he] at k2 k3 k4 k5
      simp only at k2 k3 k4 k5
      have hl : s''.log = s.log ++ ((y :: ys).take (k + 1)).map (entry g) := by rw [k2, o2]; simp
      cases r with
      | inl e =>
        have e1 : evalAll g (y :: ys) s = (s'', .inl e) := by simp [evalAll, ho, he]
        refine ⟨k + 1, by simpa using k1, ?_, ?_, ?_, ?_⟩ <;> rw [e1]
        · exact hl
        · exact k3
        · simp
        · intro e' he'
          obtain rfl := Sum.inl.inj he'
          obtain ⟨c1, c2, c3⟩ := k5 e rfl
          refine ⟨by omega, c2, ?_⟩
          rw [o2] at c3
          simp only [List.length_append, List.length_singleton] at c3
          omega
      | inr b =>
        have e1 : evalAll g (y :: ys) s = (s'', .inr ((g.cost (g.prog y), y) :: b)) := by simp [evalAll, ho, he]
        obtain ⟨c1, c2, c3⟩ := k4 b rfl
        refine ⟨k + 1, by simpa using k1, ?_, ?_, ?_, ?_⟩ <;> rw [e1]
        · exact hl
        · exact k3
        · intro b' hb
          obtain rfl := Sum.inr.inj hb
          refine ⟨by simp [c1], by simp [c2], .inr ?_⟩
          rcases c3 with rfl | c3
          · simp only [k2, o2]
            simpa using o3
          · exact c3
        · simp

theorem insert_perm (u : D × S) : ∀ l : List (D × S), (insert u l).Perm (u :: l)
  | [] => by simp [insert]
  | v :: l => by
    simp only [insert]
    split
    · exact .refl _
    · exact ((insert_perm u l).cons v).trans (.swap u v l)

theorem sorted_perm : ∀ b : List (D × S), (sorted b).Perm b
  | [] => .refl _
  | u :: b => (insert_perm u _).trans ((sorted_perm b).cons u)

theorem insert_sorted (u : D × S) : ∀ {l : List (D × S)}, l.Pairwise (fun u v => u.1 ≤ v.1) → (insert u l).Pairwise fun u v => u.1 ≤ v.1
  | [], _ => by simp [insert]
  | v :: l, h => by
    rw [List.pairwise_cons] at h
    simp only [insert]
    split
    · next hle =>
      rw [List.pairwise_cons, List.pairwise_cons]
      refine ⟨fun w hw => ?_, h⟩
      rcases List.mem_cons.1 hw with rfl | hw
      · exact hle
      · exact le_trans hle (h.1 w hw)
    · next hle =>
      rw [List.pairwise_cons]
      refine ⟨fun w hw => ?_, insert_sorted u h.2⟩
      rcases List.mem_cons.1 ((insert_perm u l).mem_iff.1 hw) with rfl | hw
      · exact (not_le.1 hle).le
      · exact h.1 w hw

theorem sorted_sorted : ∀ b : List (D × S), (sorted b).Pairwise fun u v => u.1 ≤ v.1
  | [] => .nil
  | u :: b => insert_sorted u (sorted_sorted b)

theorem insert_filter (d : D) (u : D × S) : ∀ l : List (D × S), (insert u l).filter (fun v => v.1 = d) = (u :: l).filter fun v => v.1 = d
  | [] => by simp [insert]
  | v :: l => by
    simp only [insert]
    split
    · rfl
    · next hle =>
      rw [List.filter_cons, insert_filter d u l]
      by_cases hu : u.1 = d
      · have hv : ¬ v.1 = d := fun hv => hle (hu.trans hv.symm).le
        simp [List.filter_cons, hu, hv]
      · simp [List.filter_cons, hu]

theorem sorted_filter (d : D) : ∀ b : List (D × S), (sorted b).filter (fun v => v.1 = d) = b.filter fun v => v.1 = d
  | [] => rfl
  | u :: b => by
    show (insert u (sorted b)).filter _ = _
    rw [insert_filter, List.filter_cons, List.filter_cons, sorted_filter d b]

theorem cut_mem {n : Nat} {b : List (D × S)} {u : D × S} (h : u ∈ cut n b) : u ∈ b := by
  have := List.mem_of_mem_take h
  exact (sorted_perm b).mem_iff.1 this

/-- the invariant of the loop: the beam holds reached states with their costs, and the log the entries of reached states -/
structure BInv (g : BCfg S P D) (x : S) (beam : List (D × S)) (s : BSt P D) : Prop where
  first : First s.log s.best
  reach : ∀ u ∈ beam, Reach g x u.2 ∧ u.1 = g.cost (g.prog u.2)
  log : ∀ e ∈ s.log, ∃ y, Reach g x y ∧ e = entry g y
  two : ∃ l, s.log = entry g x :: entry g x :: l
  room : s.log.length < g.reps

theorem BInv.round {bm : List (D × S)} {s : BSt P D} (h : BInv g x bm s) :
    (∀ e ∈ (evalAll g (bm.flatMap fun u => g.succ u.2) s).1.log, ∃ y, Reach g x y ∧ e = entry g y) ∧
    First (evalAll g (bm.flatMap fun u => g.succ u.2) s).1.log (evalAll g (bm.flatMap fun u => g.succ u.2) s).1.best ∧
    (∀ b, (evalAll g (bm.flatMap fun u => g.succ u.2) s).2 = .inr b → BInv g x (cut g.beamSize b) (evalAll g (bm.flatMap fun u => g.succ u.2) s).1 ∧
      b = (bm.flatMap fun u => g.succ u.2).map (fun y => (g.cost (g.prog y), y)) ∧
      (evalAll g (bm.flatMap fun u => g.succ u.2) s).1.log = s.log ++ (bm.flatMap fun u => g.succ u.2).map (entry g)) ∧
    ∀ e, (evalAll g (bm.flatMap fun u => g.succ u.2) s).2 = .inl e → Stopped g (evalAll g (bm.flatMap fun u => g.succ u.2) s).1.log e ∧
      (evalAll g (bm.flatMap fun u => g.succ u.2) s).1.log.length ≤ g.reps ∧
      ∃ l, (evalAll g (bm.flatMap fun u => g.succ u.2) s).1.log = entry g x :: entry g x :: l := by
  obtain ⟨k, k1, k2, k3, k4, k5⟩ := evalAll_spec (g := g) (bm.flatMap fun u => g.succ u.2) s h.first
  have rs : ∀ y ∈ bm.flatMap fun u => g.succ u.2, Reach g x y := by
    intro y hy
    obtain ⟨u, hu, hy⟩ := List.mem_flatMap.1 hy
    exact .move (h.reach u hu).1 hy
  have hlog : ∀ e ∈ (evalAll g (bm.flatMap fun u => g.succ u.2) s).1.log, ∃ y, Reach g x y ∧ e = entry g y := by
    intro e he
    rw [k2] at he
    rcases List.mem_append.1 he with he | he
    · exact h.log e he
    · obtain ⟨y, hy, rfl⟩ := List.mem_map.1 he
      exact ⟨y, rs y (List.mem_of_mem_take hy), rfl⟩
  have htwo : ∃ l, (evalAll g (bm.flatMap fun u => g.succ u.2) s).1.log = entry g x :: entry g x :: l := by
    obtain ⟨l, hl⟩ := h.two
    exact ⟨_, by rw [k2, hl]; rfl⟩
  refine ⟨hlog, k3, fun b hb => ?_, fun e he => ?_⟩
  · obtain ⟨c1, c2, c3⟩ := k4 b hb
    refine ⟨⟨k3, ?_, hlog, htwo, ?_⟩, c2, by rw [k2, c1, List.take_length]⟩
    · intro u hu
      have := cut_mem hu
      rw [c2] at this
      obtain ⟨y, hy, rfl⟩ := List.mem_map.1 this
      exact ⟨rs y hy, rfl⟩
    · rcases c3 with c3 | c3
      · rw [k2, c3]; simpa using h.room
      · exact c3
  · obtain ⟨c1, c2, c3⟩ := k5 e he
    refine ⟨c2, ?_, htwo⟩
    rw [k2, List.length_append, List.length_map, List.length_take, min_eq_left k1]
    have := h.room
    omega

theorem loop_spec : ∀ (f : Nat) (bm : List (D × S)) (s : BSt P D), BInv g x bm s → ∀ s' e, beamLoop g f bm s = some (s', e) →
    First s'.log s'.best ∧ (∀ e ∈ s'.log, ∃ y, Reach g x y ∧ e = entry g y) ∧ s'.log.length ≤ g.reps ∧ (∃ l, s'.log = entry g x :: entry g x :: l) ∧
    (e ≠ .empty → Stopped g s'.log e)
  | 0, bm, s, _, s', e, he => by simp [beamLoop] at he
  | f + 1, bm, s, h, s', e, he => by
    simp only [beamLoop] at he
    by_cases hb : bm.isEmpty = true
    · rw [if_pos hb] at he
      obtain ⟨rfl, rfl⟩ := Prod.mk.inj (Option.some.inj he)
      exact ⟨h.first, h.log, h.room.le, h.two, fun h => absurd rfl h⟩
    · rw [if_neg hb] at he
      obtain ⟨r1, r2, r3, r4⟩ := h.round
      rcases ev : evalAll g (bm.flatMap fun u => g.succ u.2) s with ⟨t, r⟩
      rw [ev] at he r1 r2 r3 r4
      cases r with
      | inl e' =>
        obtain ⟨rfl, rfl⟩ := Prod.mk.inj (Option.some.inj he)
        obtain ⟨a, b, c⟩ := r4 _ rfl
        exact ⟨r2, r1, b, c, fun _ => a⟩
      | inr b => exact loop_spec f _ _ (r3 b rfl).1 s' e he

/-- the start: both evaluations of the initial program -/
theorem beam_start (g : BCfg S P D) (f : Nat) (x : S) :
    (beam g f x = some (⟨some (entry g x), [entry g x]⟩, .oracle) ∧ g.optimal (g.prog x) (g.cost (g.prog x)) = true) ∨
    (beam g f x = some (⟨some (entry g x), [entry g x]⟩, .noMoreEvals) ∧ g.reps ≤ 1) ∨
    (beam g f x = some (⟨some (entry g x), [entry g x, entry g x]⟩, .noMoreEvals) ∧ g.reps = 2) ∨
    (beam g f x = beamLoop g f [(g.cost (g.prog x), x)] ⟨some (entry g x), [entry g x, entry g x]⟩ ∧
      BInv g x [(g.cost (g.prog x), x)] ⟨some (entry g x), [entry g x, entry g x]⟩) := by
  by_cases ho : g.optimal (g.prog x) (g.cost (g.prog x)) = true
  · left; simp [beam, objective, ho, entry]
  · right
    by_cases h1 : g.reps ≤ 1
    · left; simp [beam, objective, ho, h1, entry]
    · right
      by_cases h2 : g.reps ≤ 2
      · left
        refine ⟨by simp [beam, objective, ho, h1, h2, entry], by omega⟩
      · right
        refine ⟨by simp [beam, objective, ho, h1, h2, entry], ?_⟩
        exact {
          first := .inr ⟨[], entry g x, [entry g x], rfl, rfl, by simp, by simp⟩
          reach := by
            intro u hu
            simp only [List.mem_singleton] at hu
            subst hu
            exact ⟨.root, rfl⟩
          log := by
            intro e he
            simp only [List.mem_cons, List.not_mem_nil, or_false, or_self] at he
            exact ⟨x, .root, he⟩
          two := ⟨[], rfl⟩
          room := by simp; omega }

/-! ### C73 -/

/-- **C73 (the best).**  The result of a beam search is the first of the evaluated programs with the least cost; the evaluated programs are the initial
program, first, and programs that actions reach from it. -/
theorem C73_best (g : BCfg S P D) (f : Nat) (x : S) {s : BSt P D} {e : Stop} (h : beam g f x = some (s, e)) :
    (∃ a p c b, s.log = a ++ (p, c) :: b ∧ s.best = some (p, c) ∧ (∀ u ∈ a, c < u.2) ∧ ∀ u ∈ b, c ≤ u.2) ∧
    s.log.head? = some (g.prog x, g.cost (g.prog x)) ∧ ∀ u ∈ s.log, ∃ y, Reach g x y ∧ u = (g.prog y, g.cost (g.prog y)) := by
  have fst : ∀ {l : List (P × D)} {o : Option (P × D)}, First l o → l ≠ [] → ∃ a p c b, l = a ++ (p, c) :: b ∧ o = some (p, c) ∧ (∀ u ∈ a, c < u.2) ∧ ∀ u ∈ b, c ≤ u.2 := by
    intro l o h hn
    rcases h with ⟨rfl, -⟩ | ⟨a, ⟨p, c⟩, b, h1, h2, h3, h4⟩
    · exact absurd rfl hn
    · exact ⟨a, p, c, b, h1, h2, h3, h4⟩
  rcases beam_start g f x with ⟨h', -⟩ | ⟨h', -⟩ | ⟨h', -⟩ | ⟨h', inv⟩ <;> rw [h'] at h
  · obtain ⟨rfl, rfl⟩ := Prod.mk.inj (Option.some.inj h)
    exact ⟨⟨[], _, _, [], rfl, rfl, by simp, by simp⟩, rfl, fun u hu => ⟨x, .root, by simpa [entry] using hu⟩⟩
  · obtain ⟨rfl, rfl⟩ := Prod.mk.inj (Option.some.inj h)
    exact ⟨⟨[], _, _, [], rfl, rfl, by simp, by simp⟩, rfl, fun u hu => ⟨x, .root, by simpa [entry] using hu⟩⟩
  · obtain ⟨rfl, rfl⟩ := Prod.mk.inj (Option.some.inj h)
    exact ⟨⟨[], _, _, [entry g x], rfl, rfl, by simp, by simp [entry]⟩, rfl, fun u hu => ⟨x, .root, by simpa [entry] using hu⟩⟩
  · obtain ⟨a, b, -, ⟨l, d⟩, -⟩ := loop_spec f _ _ inv s e h
    refine ⟨fst a (by rw [d]; simp), by rw [d]; rfl, b⟩

/-- **C73 (budget).**  At most `reps` programs are evaluated (one if `reps` is 0), exactly so many if the search ends for this reason; the initial program
counts twice, unless the search ends with its first evaluation. -/
theorem C73_budget (g : BCfg S P D) (f : Nat) (x : S) {s : BSt P D} {e : Stop} (h : beam g f x = some (s, e)) :
    s.log.length ≤ max 1 g.reps ∧ (e = .noMoreEvals → s.log.length = max 1 g.reps) ∧
    (e = .oracle → ∃ y, s.log.getLast? = some (g.prog y, g.cost (g.prog y)) ∧ g.optimal (g.prog y) (g.cost (g.prog y)) = true) ∧
    (s.log.length = 1 ∨ s.log.take 2 = [(g.prog x, g.cost (g.prog x)), (g.prog x, g.cost (g.prog x))]) := by
  rcases beam_start g f x with ⟨h', ho⟩ | ⟨h', hr⟩ | ⟨h', hr⟩ | ⟨h', inv⟩ <;> rw [h'] at h
  · obtain ⟨rfl, rfl⟩ := Prod.mk.inj (Option.some.inj h)
    exact ⟨by simp, by simp, fun _ => ⟨x, rfl, ho⟩, .inl rfl⟩
  · obtain ⟨rfl, rfl⟩ := Prod.mk.inj (Option.some.inj h)
    exact ⟨by simp, fun _ => by simp; omega, by simp, .inl rfl⟩
  · obtain ⟨rfl, rfl⟩ := Prod.mk.inj (Option.some.inj h)
    exact ⟨by simp; omega, fun _ => by simp; omega, by simp, .inr rfl⟩
  · obtain ⟨-, -, c, ⟨l, d⟩, k⟩ := loop_spec f _ _ inv s e h
    refine ⟨by omega, ?_, ?_, .inr (by rw [d]; rfl)⟩
    · rintro rfl
      obtain ⟨l, y, -, ⟨h1, -⟩ | ⟨-, h1⟩⟩ := k (by simp)
      · cases h1
      · have := inv.room
        simp at this
        omega
    · rintro rfl
      obtain ⟨l, y, h0, ⟨-, h1⟩ | ⟨h1, -⟩⟩ := k (by simp)
      · exact ⟨y, by rw [h0]; simp [entry], h1⟩
      · cases h1

theorem loop_ends : ∀ (f : Nat) (bm : List (D × S)) (s : BSt P D), BInv g x bm s → g.reps + 2 ≤ s.log.length + f → beamLoop g f bm s ≠ none
  | 0, bm, s, h, hf => by have := h.room; omega
  | f + 1, bm, s, h, hf => by
    simp only [beamLoop]
    by_cases hb : bm.isEmpty = true
    · rw [if_pos hb]; simp
    · rw [if_neg hb]
      obtain ⟨-, -, r3, -⟩ := h.round
      rcases ev : evalAll g (bm.flatMap fun u => g.succ u.2) s with ⟨t, r⟩
      rw [ev] at r3 ⊢
      cases r with
      | inl e' => simp
      | inr b =>
        obtain ⟨i, hb, hl⟩ := r3 b rfl
        simp only
        by_cases hn : (bm.flatMap fun u => g.succ u.2) = []
        · rw [hn] at hb
          have hc : cut g.beamSize b = [] := by rw [hb]; simp [cut, sorted]
          rw [hc]
          cases f with
          | zero => have := h.room; omega
          | succ f => simp [beamLoop]
        · refine loop_ends f _ t i ?_
          have : 0 < (bm.flatMap fun u => g.succ u.2).length := List.length_pos_iff.2 hn
          simp only at hl
          rw [hl, List.length_append, List.length_map]
          omega

/-- **C73 (termination).**  Whatever the actions, a beam search ends, after at most `reps` rounds. -/
theorem C73_ends (g : BCfg S P D) (f : Nat) (x : S) (hf : g.reps ≤ f) : ∃ r, beam g f x = some r := by
  rcases beam_start g f x with ⟨h', -⟩ | ⟨h', -⟩ | ⟨h', -⟩ | ⟨h', inv⟩
  · exact ⟨_, h'⟩
  · exact ⟨_, h'⟩
  · exact ⟨_, h'⟩
  · rw [h']
    exact Option.ne_none_iff_exists'.1 (loop_ends f _ _ inv (by simp; omega))

/-- **C73 (the cut).**  The beam keeps at most `beam_size` states of `b`, none of which costs more than a state that is dropped, with the cheaper ones first, and
drops none if there are no more than that; of states with the same cost, those that come first. -/
theorem C73_cut (n : Nat) (b : List (D × S)) : ∃ rest, (cut n b ++ rest).Perm b ∧ (cut n b).length = min n b.length ∧
    (∀ u ∈ cut n b, ∀ v ∈ rest, u.1 ≤ v.1) ∧ (cut n b).Pairwise (fun u v => u.1 ≤ v.1) ∧
    ∀ d, (cut n b).filter (fun v => v.1 = d) ++ rest.filter (fun v => v.1 = d) = b.filter fun v => v.1 = d := by
  have hs := sorted_sorted b
  refine ⟨(sorted b).drop n, ?_, ?_, ?_, ?_, fun d => ?_⟩
  · rw [cut, List.take_append_drop]; exact sorted_perm b
  · rw [cut, List.length_take, (sorted_perm b).length_eq]
  · intro u hu v hv
    rw [← List.take_append_drop n (sorted b), List.pairwise_append] at hs
    exact hs.2.2 u hu v hv
  · exact hs.sublist (List.take_sublist _ _)
  · rw [cut, ← List.filter_append, List.take_append_drop, sorted_filter]

theorem loop_full : ∀ (f : Nat) (bm : List (D × S)) (s : BSt P D) (n : Nat), BInv g x bm s → (bm.map Prod.snd).Perm (level g x n) →
    (∀ n, (level g x n).length ≤ g.beamSize) → (∀ m ≤ n, ∀ y ∈ level g x m, entry g y ∈ s.log) →
    ∀ s', beamLoop g f bm s = some (s', .empty) → ∀ m, ∀ y ∈ level g x m, entry g y ∈ s'.log
  | 0, bm, s, n, _, _, _, _, s', he => by simp [beamLoop] at he
  | f + 1, bm, s, n, h, hp, hw, hall, s', he => by
    simp only [beamLoop] at he
    by_cases hb : bm.isEmpty = true
    · rw [if_pos hb] at he
      obtain ⟨rfl, -⟩ := Prod.mk.inj (Option.some.inj he)
      have hn : level g x n = [] := by
        rw [List.isEmpty_iff] at hb
        subst hb
        exact List.nil_perm.1 (by simpa using hp)
      have beyond : ∀ k, level g x (n + k) = [] := by
        intro k
        induction k with
        | zero => exact hn
        | succ k ih => rw [← Nat.add_assoc, level, ih]; rfl
      intro m y hy
      by_cases hm : m ≤ n
      · exact hall m hm y hy
      · obtain ⟨k, rfl⟩ : ∃ k, m = n + k := ⟨m - n, by omega⟩
        rw [beyond k] at hy
        simp at hy
    · rw [if_neg hb] at he
      obtain ⟨-, -, r3, r4⟩ := h.round
      rcases ev : evalAll g (bm.flatMap fun u => g.succ u.2) s with ⟨t, r⟩
      rw [ev] at he r3 r4
      cases r with
      | inl e' =>
        obtain ⟨-, rfl⟩ := Prod.mk.inj (Option.some.inj he)
        obtain ⟨⟨l, y, -, ⟨h1, -⟩ | ⟨h1, -⟩⟩, -⟩ := r4 _ rfl <;> cases h1
      | inr b =>
        obtain ⟨i, hb, hl⟩ := r3 b rfl
        have hp' : (bm.flatMap fun u => g.succ u.2).Perm (level g x (n + 1)) := by
          have : (bm.flatMap fun u => g.succ u.2) = (bm.map Prod.snd).flatMap g.succ := by rw [List.flatMap_map]
          rw [this]
          exact hp.flatMap_right _
        have hcut : ((cut g.beamSize b).map Prod.snd).Perm (level g x (n + 1)) := by
          obtain ⟨rest, c1, c2, -⟩ := C73_cut g.beamSize b
          have hlen : b.length ≤ g.beamSize := by
            rw [hb, List.length_map, hp'.length_eq]; exact hw _
          rw [min_eq_right hlen] at c2
          have hr : rest = [] := by
            have := c1.length_eq
            rw [List.length_append] at this
            exact List.length_eq_zero_iff.1 (by omega)
          rw [hr, List.append_nil] at c1
          refine (c1.map Prod.snd).trans ?_
          rw [hb, List.map_map]
          simpa [Function.comp_def] using hp'
        refine loop_full f _ t (n + 1) i hcut hw ?_ s' he
        intro m hm y hy
        simp only at hl
        rw [hl]
        by_cases hm' : m ≤ n
        · exact List.mem_append_left _ (hall m hm' y hy)
        · obtain rfl : m = n + 1 := by omega
          exact List.mem_append_right _ (List.mem_map_of_mem (hp'.mem_iff.2 hy))

/-- **C73 (exhaustive).**  If no level is wider than the beam and the search ends because the beam is empty, all programs that actions reach were evaluated, and the
result costs no more than any of them. -/
theorem C73_exhaustive (g : BCfg S P D) (f : Nat) (x : S) (hw : ∀ n, (level g x n).length ≤ g.beamSize) {s : BSt P D} (h : beam g f x = some (s, .empty)) :
    ∀ y, Reach g x y → (g.prog y, g.cost (g.prog y)) ∈ s.log ∧ ∃ p c, s.best = some (p, c) ∧ c ≤ g.cost (g.prog y) := by
  have hl : ∀ y, Reach g x y → ∃ n, y ∈ level g x n := by
    intro y hy
    induction hy with
    | root => exact ⟨0, by simp [level]⟩
    | move _ hz ih =>
      obtain ⟨n, hn⟩ := ih
      exact ⟨n + 1, List.mem_flatMap.2 ⟨_, hn, hz⟩⟩
  have all : ∀ m, ∀ y ∈ level g x m, entry g y ∈ s.log := by
    rcases beam_start g f x with ⟨h', -⟩ | ⟨h', -⟩ | ⟨h', -⟩ | ⟨h', inv⟩ <;> rw [h'] at h
    · cases (Prod.mk.inj (Option.some.inj h)).2
    · cases (Prod.mk.inj (Option.some.inj h)).2
    · cases (Prod.mk.inj (Option.some.inj h)).2
    · refine loop_full f _ _ 0 inv (by simp [level]) hw ?_ s h
      intro m hm y hy
      obtain rfl : m = 0 := by omega
      simp only [level, List.mem_singleton] at hy
      subst hy
      simp
  intro y hy
  obtain ⟨n, hn⟩ := hl y hy
  have hm : entry g y ∈ s.log := all n y hn
  refine ⟨hm, ?_⟩
  obtain ⟨⟨a, p, c, b, e1, e2, e3, e4⟩, -⟩ := C73_best g f x h
  refine ⟨p, c, e2, ?_⟩
  rw [e1] at hm
  simp only [List.mem_append, List.mem_cons] at hm
  rcases hm with hm | hm | hm
  · exact (e3 _ hm).le
  · exact (congrArg Prod.snd hm).symm.le
  · exact e4 _ hm

end

section
variable {R : Type} [DecidableEq R]

theorem nodup_eraseDups : ∀ (n : Nat) {l : List R}, l.length ≤ n → l.eraseDups.Nodup
  | 0, l, h => by rw [List.length_eq_zero_iff.1 (Nat.le_zero.1 h)]; simp
  | n + 1, [], _ => by simp
  | n + 1, a :: l, h => by
    rw [List.eraseDups_cons, List.nodup_cons]
    refine ⟨by simp, nodup_eraseDups n (le_trans (List.length_filter_le _ _) (by simpa using h))⟩

/-- the states along a sequence of new programs (`transition`), until there is nothing to do -/
def todoRun : List R × List R → List (List R) → Option (List R × List R)
  | s, [] => some s
  | (rules, []), _ :: _ => some (rules, [])
  | (rules, r :: todo), p :: ps => match updateTodo rules (r :: todo) p with
    | none => none
    | some todo' => todoRun (p, todo') ps

/-- **C73 (the to-do list).**  If the rules to do are rules of the program and there is one, the first one has an index, and the new list holds the rules of the new
program that are new or were to do, except the first; so the next step finds its rule again. -/
theorem C73_todo (rules todo new : List R) (r : R) (hsub : ∀ t ∈ r :: todo, t ∈ rules) (hnd : (r :: todo).Nodup) :
    (∃ i, ruleIndex rules (r :: todo) = some i ∧ rules[i]? = some r ∧ ∀ j < i, rules[j]? ≠ some r) ∧
    ∃ todo', updateTodo rules (r :: todo) new = some todo' ∧ todo'.Nodup ∧ (∀ t, t ∈ todo' ↔ t ∈ new ∧ (t ∉ rules ∨ t ∈ todo)) := by
  have hr := hsub r (by simp)
  have hidx : ruleIndex rules (r :: todo) = some (rules.idxOf r) := by
    simp only [ruleIndex, if_pos hr]
    rw [List.idxOf?, List.findIdx?_eq_some_iff_findIdx_eq]
    exact ⟨List.idxOf_lt_length_iff.2 hr, rfl⟩
  have hget : rules[rules.idxOf r]? = some r := by
    rw [List.getElem?_eq_getElem (List.idxOf_lt_length_iff.2 hr), List.getElem_idxOf]
  refine ⟨⟨_, hidx, hget, fun j hj e => ?_⟩, _, by simp only [updateTodo, hidx, hget]; rfl, ?_, fun t => ?_⟩
  · obtain ⟨hlt, e⟩ := List.getElem?_eq_some_iff.1 e
    have := List.not_of_lt_findIdx (p := (· == r)) (xs := rules) (i := j) hj
    simp [e] at this
  · rw [List.nodup_append]
    refine ⟨(hnd.filter _).filter _, (nodup_eraseDups _ (le_refl _)).filter _, ?_⟩
    rintro a ha b hb rfl
    have := (List.mem_filter.1 hb).2
    simp only [decide_eq_true_eq] at this
    exact this ha
  · have hrt : r ∉ todo := (List.nodup_cons.1 hnd).1
    simp only [List.mem_append, List.mem_filter, List.mem_cons, List.mem_eraseDups, decide_eq_true_eq, Bool.not_eq_true', Bool.and_eq_false_iff, decide_eq_false_iff_not, not_not]
    constructor
    · rintro (⟨⟨rfl | h1, h2⟩, h3⟩ | ⟨⟨h1, h2⟩, -⟩)
      · exact absurd rfl h2
      · exact ⟨h3.resolve_left fun h => h (hsub t (by simp [h1])), .inr h1⟩
      · exact ⟨h1, .inl h2⟩
    · rintro ⟨h1, h2 | h2⟩
      · exact .inr ⟨⟨h1, h2⟩, by
          rintro ⟨⟨h, -⟩, -⟩
          exact h2 (hsub t (by simpa using h))⟩
      · exact .inl ⟨⟨.inr h2, by rintro rfl; exact hrt h2⟩, .inr h1⟩

/-- **C73 (the to-do list is never wrong).**  Along any sequence of programs, starting with all rules of the first, no step raises an exception as long as
there is something to do. -/
theorem C73_todo_run (src : List R) (ps : List (List R)) : ∃ todo, todoRun (src, src.eraseDups) ps = some todo ∧
    todo.2.Nodup ∧ ∀ t ∈ todo.2, t ∈ todo.1 := by
  have key : ∀ (ps : List (List R)) (s : List R × List R), s.2.Nodup → (∀ t ∈ s.2, t ∈ s.1) →
      ∃ todo, todoRun s ps = some todo ∧ todo.2.Nodup ∧ ∀ t ∈ todo.2, t ∈ todo.1 := by
    intro ps
    induction ps with
    | nil => intro s h1 h2; exact ⟨s, rfl, h1, h2⟩
    | cons p ps ih =>
      intro s h1 h2
      obtain ⟨rules, todo⟩ := s
      cases todo with
      | nil => exact ⟨(rules, []), rfl, by simp, by simp⟩
      | cons r todo =>
        obtain ⟨-, todo', e, n, m⟩ := C73_todo rules todo p r h2 h1
        obtain ⟨z, hz, hh⟩ := ih (p, todo') n fun t ht => ((m t).1 ht).1
        exact ⟨z, by simp only [todoRun, e]; exact hz, hh⟩
  exact key ps _ (nodup_eraseDups _ (le_refl _)) fun t ht => by simpa using ht

end

/-! ### C73: examples -/

/-- from `n` to `2 n` and `2 n + 1` below 8; the cost has its least at 6 -/
def demoB (reps size : Nat) : BCfg Nat Nat Nat := ⟨id, fun n => (n - 6) + (6 - n), fun n => if n < 4 then [2 * n, 2 * n + 1] else [], fun _ c => c == 7, reps, size⟩

/-- a beam of two finds 6, the third program at the last level; the initial program is evaluated twice -/
example : beam (demoB 100 2) 100 1 = some (⟨some (6, 0), [(1, 5), (1, 5), (2, 4), (3, 3), (6, 0), (7, 1), (4, 2), (5, 1)]⟩, .empty) := by decide +kernel
/-- a beam of one does so too, but does not see 4 and 5 -/
example : beam (demoB 100 1) 100 1 = some (⟨some (6, 0), [(1, 5), (1, 5), (2, 4), (3, 3), (6, 0), (7, 1)]⟩, .empty) := by decide +kernel
/-- the budget -/
example : beam (demoB 4 2) 100 1 = some (⟨some (3, 3), [(1, 5), (1, 5), (2, 4), (3, 3)]⟩, .noMoreEvals) := by decide +kernel
example : beam (demoB 0 2) 100 1 = some (⟨some (1, 5), [(1, 5)]⟩, .noMoreEvals) := by decide +kernel

/-- the levels are no wider than a beam of four, so that the search is exhaustive -/
example : ∀ n, (level (demoB 100 4) 1 n).length ≤ (demoB 100 4).beamSize := by
  have h3 : ∀ k, level (demoB 100 4) 1 (3 + k) = [] := by
    intro k
    induction k with
    | zero => decide
    | succ k ih => rw [← Nat.add_assoc, level, ih]; rfl
  intro n
  match n with
  | 0 => decide
  | 1 => decide
  | 2 => decide
  | k + 3 => rw [Nat.add_comm, h3]; simp

/-- rule 1 is done; 3 is no longer there; 5 and 6 are new; 9 was done before -/
example : updateTodo [9, 1, 3, 4] [1, 3, 4] [5, 4, 6, 5, 9] = some [4, 5, 6] := by decide +kernel
example : ruleIndex [9, 1, 3, 1] [1, 3] = some 1 := by decide +kernel
/-- with a rule to do that is not in the program, there is an exception -/
example : ruleIndex [9, 3] [1, 3] = none := by decide +kernel

end Search
end Verif
