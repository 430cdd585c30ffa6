/-
The search loops over programs: `/repo/dyna/search/search.py` `Agenda` (17-29), `AgendaBasedSearch.__init__` (67-113),
`_run_agenda` (131-168), `check_measure` (170-178), `_update` (180-189), `optimize_plans` (191-193);
`/repo/dyna/search/old.py` `Search.go` (55-64), `objective` (89-126), `BeamSearch.run` (184-197), `Graph2.rule_index` (494-500),
`update_todo` (556-565).

The moves (`drive`, `actions` and `transition`), the costs (`degrees()` of the pruned program) and the check of the measure
are parameters; costs are compared by a linear order.  Times, statistics, logs and messages are left out.
A `State` has no equality of its own, so the `Integerizer` gives every pushed state a new number.  The random number
that decides between the two ways to pop, and the choice of `pdict.pop` between states of equal priority, are given as
a list of choices.  `KeyError` and `IndexError` are the outcome `raised`.  `check_measure` is cached (`lru_cache`), and programs are
equal if they have the same rules (`Program.__eq__`, program.py:543-550), whatever transformations made them: `key` stands for the
class of a program, and the cache maps classes to verdicts.
-/
import Mathlib.Data.List.Perm.Basic
import Mathlib.Data.List.Sort
import Mathlib.Order.Basic

set_option linter.unusedSectionVars false
set_option linter.unusedSimpArgs false

namespace Verif
namespace Search

/-! ### Agenda-based search -/

section
variable {S P K D : Type} [DecidableEq K] [LinearOrder D]

/-- the parameters of the search -/
structure Cfg (S P K D : Type) where
  /-- `x.program` -/
  prog : S → P
  /-- `priority_fn` (91) -/
  prio : S → D
  /-- `x.program.prune_fast().degrees()` (107, 151) -/
  cost : P → D
  /-- what programs that are equal have in common -/
  key : P → K
  /-- the body of `check_measure` (171-178) -/
  check : P → Bool
  /-- the states that `drive(x)` (195-216) pushes, in order -/
  drive : S → List S

/-- the attributes of the search object; `popped` lists what was popped (`pops` is its length), `pending` is the state that was
yielded and will be driven when the generator is resumed (164-168), `yields` what was yielded, `cache` the cache of `check_measure` (170) -/
structure St (S P K D : Type) where
  states : List S
  agenda : List (Nat × D)
  fifo : List Nat
  chart : List Nat
  best : P
  bestCost : D
  popped : List Nat
  pending : Option S
  yields : List P
  cache : List (K × Bool)

/-- `_update(x)` (180-189): `self.P(x)`, `agenda.add`, `_fifo.add` -/
def update (g : Cfg S P K D) (s : St S P K D) (x : S) : St S P K D :=
  let i := s.states.length
  { s with
    states := s.states ++ [x]
    agenda := s.agenda.filter (fun a => a.1 != i) ++ [(i, g.prio x)]
    fifo := if i ∈ s.fifo then s.fifo else s.fifo ++ [i] }

/-- `AgendaBasedSearch(program)` (67-113) -/
def init (g : Cfg S P K D) (x : S) : St S P K D := update g ⟨[], [], [], [], g.prog x, g.cost (g.prog x), [], none, [], []⟩ x

/-- what the loop does next: greedily pop number `i`, or pop the oldest -/
inductive Choice
  | greedy (i : Nat)
  | oldest
deriving DecidableEq

/-- the outcome of a step: the generator has ended, the choice is none that `pdict.pop` can make, an exception, a new state -/
inductive Out (α : Type)
  | done (s : α)
  | stuck
  | raised
  | next (s : α)

/-- the number that is popped, and agenda and `_fifo` without it (136-143) -/
def pop (c : Choice) (s : St S P K D) : Out (Nat × St S P K D) :=
  match c with
  | .greedy i => match s.agenda.lookup i with
    | none => .stuck
    | some d => if s.agenda.all fun a => decide (d ≤ a.2) then
        if i ∈ s.fifo then .next (i, { s with agenda := s.agenda.filter fun a => a.1 != i, fifo := s.fifo.erase i }) else .raised
      else .stuck
  | .oldest => match s.fifo with
    | [] => .raised
    | i :: fs => match s.agenda.lookup i with
      | none => .raised
      | some _ => .next (i, { s with agenda := s.agenda.filter fun a => a.1 != i, fifo := fs })

/-- `check_measure(p)` with its cache (170-178): the verdict and the new cache -/
def verdict (g : Cfg S P K D) (c : List (K × Bool)) (p : P) : Bool × List (K × Bool) :=
  match c.lookup (g.key p) with
  | some b => (b, c)
  | none => (g.check p, c ++ [(g.key p, g.check p)])

/-- the body of the loop after the pop, up to the `yield` (145-164) -/
def process (g : Cfg S P K D) (i : Nat) (s : St S P K D) : Out (St S P K D) :=
  match s.states[i]? with
  | none => .raised
  | some x =>
    let v := verdict g s.cache (g.prog x)
    let s := { s with popped := s.popped ++ [i], cache := v.2 }
    if v.1 = false then .next s                                                         -- 148
    else
      let s := { s with chart := if i ∈ s.chart then s.chart else s.chart ++ [i] }      -- 149
      let s := if g.cost (g.prog x) < s.bestCost then { s with best := g.prog x, bestCost := g.cost (g.prog x) } else s   -- 151-154
      .next { s with pending := some x, yields := s.yields ++ [g.prog x] }              -- 164

/-- `self.drive(x)` (168), if a state is pending -/
def resume (g : Cfg S P K D) (s : St S P K D) : St S P K D :=
  match s.pending with
  | none => s
  | some x => (g.drive x).foldl (update g) { s with pending := none }

/-- one round of the loop `while self.agenda` (133-168), from one point after the `yield` or `continue` to the next -/
def step (g : Cfg S P K D) (c : Choice) (s : St S P K D) : Out (St S P K D) :=
  let s := resume g s
  if s.agenda = [] then .done s else
  match pop c s with
  | .next (i, s) => process g i s
  | .raised => .raised
  | _ => .stuck

/-- several rounds -/
def exec (g : Cfg S P K D) : List Choice → St S P K D → Out (St S P K D)
  | [], s => .next s
  | c :: cs, s => match step g c s with
    | .next s => exec g cs s
    | o => o

end

/-! ### Beam search -/

section
variable {S P D : Type} [LinearOrder D]

/-- the parameters of a beam search; `optimal` is false if there is no oracle -/
structure BCfg (S P D : Type) where
  /-- `x.program` -/
  prog : S → P
  /-- `G.cost` -/
  cost : P → D
  /-- `G.transition(x, a)` for the actions `a` of `G.actions(x)` (193-194) -/
  succ : S → List S
  /-- `ORACLE_STOP and benchmark.is_optimal(p, cost)` (120) -/
  optimal : P → D → Bool
  reps : Nat
  beamSize : Nat

/-- why the search ended -/
inductive Stop
  | oracle
  | noMoreEvals
  | empty
deriving DecidableEq

/-- `best` and `best_cost`, and the evaluated programs with their costs (`programs`, `log`; `i` is their number) -/
structure BSt (P D : Type) where
  best : Option (P × D)
  log : List (P × D)
deriving DecidableEq

/-- `objective(p)` (89-126) -/
def objective (g : BCfg S P D) (p : P) (s : BSt P D) : BSt P D × Option Stop :=
  let c := g.cost p
  let s : BSt P D := ⟨match s.best with
    | none => some (p, c)
    | some b => if c < b.2 then some (p, c) else some b, s.log ++ [(p, c)]⟩             -- 111-113
  (s, if g.optimal p c then some .oracle                                                -- 120-121
    else if g.reps ≤ s.log.length then some .noMoreEvals else none)                     -- 123-124

/-- the inner loops (192-196) over the successors: the new list `b`, unless the search is stopped -/
def evalAll (g : BCfg S P D) : List S → BSt P D → BSt P D × (Stop ⊕ List (D × S))
  | [], s => (s, .inr [])
  | y :: ys, s => match objective g (g.prog y) s with
    | (s, some e) => (s, .inl e)
    | (s, none) => match evalAll g ys s with
      | (s, .inl e) => (s, .inl e)
      | (s, .inr b) => (s, .inr ((g.cost (g.prog y), y) :: b))

/-- insertion before the first entry that does not cost less -/
def insert (u : D × S) : List (D × S) → List (D × S)
  | [] => [u]
  | v :: l => if u.1 ≤ v.1 then u :: v :: l else v :: insert u l

/-- python's `sorted(b, key=lambda cy: cy[0])`: a stable sort -/
def sorted (b : List (D × S)) : List (D × S) := b.foldr insert []

/-- `sorted(b, key=...)[:beam_size]` (197) -/
def cut (n : Nat) (b : List (D × S)) : List (D × S) := (sorted b).take n

/-- the loop `while beam` (189-197); `none`: no fuel -/
def beamLoop (g : BCfg S P D) : Nat → List (D × S) → BSt P D → Option (BSt P D × Stop)
  | 0, _, _ => none
  | f + 1, beam, s =>
    if beam.isEmpty then some (s, .empty) else
    match evalAll g (beam.flatMap fun cx => g.succ cx.2) s with
    | (s, .inl e) => some (s, e)
    | (s, .inr b) => beamLoop g f (cut g.beamSize b) s

/-- `go()` (55-64) and `run()` (184-197) from the initial state `x` -/
def beam (g : BCfg S P D) (f : Nat) (x : S) : Option (BSt P D × Stop) :=
  match objective g (g.prog x) ⟨none, []⟩ with                                          -- 57
  | (s, some e) => some (s, e)
  | (s, none) => match objective g (g.prog x) s with                                    -- 187
    | (s, some e) => some (s, e)
    | (s, none) => beamLoop g f [(g.cost (g.prog x), x)] s

end

/-! ### The to-do list of `Graph2` -/

section
variable {R : Type} [DecidableEq R]

/-- `rule_index(state)` (494-500); `none`: an exception -/
def ruleIndex (rules todo : List R) : Option Nat :=
  match todo with
  | [] => none
  | r :: _ => if r ∈ rules then rules.idxOf? r else none                                -- the assertion

/-- `update_todo(state, new_program)` (556-565) -/
def updateTodo (rules todo new : List R) : Option (List R) :=
  match ruleIndex rules todo with
  | none => none
  | some i => match rules[i]? with
    | none => none
    | some r =>
      let todo := todo.filter fun t => t ≠ r                                            -- 558
      let todo := todo.filter fun t => !(decide (t ∈ rules) && decide (t ∉ new))        -- 562
      some (todo ++ ((new.filter fun t => decide (t ∉ rules)).eraseDups.filter fun t => decide (t ∉ todo)))   -- 564

end
end Search
end Verif
