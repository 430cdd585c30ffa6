/-
The indexed chart of the ground solver: class `Chart` and `query_mode` of
`/repo/dyna/execute/solver.py` (171-241).

Stored items are ground terms.  Queries are given with their bindings resolved (`is_ground`, `==`,
`hash` and `unify` all resolve bindings first).  A Python set is a list without repetitions together
with an unspecified iteration order `ord`.
-/
import Verif.RuleEq
import Verif.Dict

set_option linter.unusedSectionVars false
set_option linter.unusedSimpArgs false

namespace Verif
open Tm

/-- functor and arguments of a `Term` (`fn`, `args`, term.py:339-346) -/
def Tm.parts : Tm → Option (Tm × List Tm)
  | .app (f :: as) => some (f, as)
  | _ => none

/-- one index: argument values at the bound positions to the set of items -/
abbrev Ix := Dict (List Tm) (List Tm)

/-- `Chart.__init__` (173-175) -/
structure Chart (K : Type) where
  chart : Dict Tm K
  index : Dict (Tm × Nat) (Dict (List Nat) Ix)

namespace Chart
variable {K : Type}

def empty : Chart K := ⟨[], []⟩

/-- the positions of the ground arguments: second component of `query_mode` (237-241) -/
def qmode (as : List Tm) : List Nat := (List.range as.length).filter fun i => decide (vars (as.getD i default) = ∅)

/-- `tuple(x.args[i] for i in m)` (199, 211, 231) -/
def keyAt (as : List Tm) (m : List Nat) : List Tm := m.map fun i => as.getD i default

/-- `ix[k].add(x)`, creating the set if missing (211, 233-234) -/
def addTo (ix : Ix) (k : List Tm) (x : Tm) : Ix :=
  let l := (Dict.get ix k).getD []
  Dict.set ix k (if x ∈ l then l else l ++ [x])

/-- one round of the loop 209-211 -/
def buildStep (f : Tm) (a : Nat) (m : List Nat) (ix : Ix) (x : Tm) : Ix :=
  match x.parts with
  | some (f', as) => if f' = f ∧ as.length = a then addTo ix (keyAt as m) x else ix
  | none => ix

/-- `_build_index(fa, m)` (206-212) -/
def buildIndex (chart : Dict Tm K) (f : Tm) (a : Nat) (m : List Nat) : Ix :=
  (Dict.keys chart).foldl (buildStep f a m) []

/-- `_update_index(item)` (224-234) -/
def updateIndex (c : Chart K) (item : Tm) : Dict (Tm × Nat) (Dict (List Nat) Ix) :=
  if item ∈ Dict.keys c.chart then c.index else
  match item.parts with
  | none => c.index
  | some (f, as) => match Dict.get c.index (f, as.length) with
    | none => c.index
    | some avail => Dict.set c.index (f, as.length) (avail.map fun p => (p.1, addTo p.2 (keyAt as p.1) item))

/-- `__setitem__(item, v)` (180-182) -/
def setitem (c : Chart K) (item : Tm) (v : K) : Chart K := ⟨Dict.set c.chart item v, c.updateIndex item⟩

/-- the set `xs` of candidates computed by `_indexed_lookup(q)` (189-200) and the chart with the index
it may have created -/
def cands (c : Chart K) (q : Tm) : Option (Chart K × List Tm) :=
  match q.parts with
  | none => none                                                                -- not a `Term`
  | some (f, as) =>
    let m := qmode as
    let avail := (Dict.get c.index (f, as.length)).getD []                      -- 191-193
    let ix := (Dict.get avail m).getD (buildIndex c.chart f as.length m)        -- 195-197
    some (⟨c.chart, Dict.set c.index (f, as.length) (Dict.set avail m ix)⟩, (Dict.get ix (keyAt as m)).getD [])

/-- one round of the loop 202-204 -/
def probe (fuel : Nat) (chart : Dict Tm K) (q x : Tm) : Option (List (Tm × K)) :=
  match Heap.unifiesF fuel x q (fun _ => none) with
  | none => none
  | some false => some []
  | some true => match Dict.get chart x with
    | none => none
    | some v => some [(x, v)]

/-- `list(chart[q])` (184-204): every yielded value, paired with the item `q` is bound to at that
moment.  `none`: fuel ran out or a `KeyError`. -/
def getitem (ord : List Tm → List Tm) (fuel : Nat) (c : Chart K) (q : Tm) : Option (Chart K × List (Tm × K)) :=
  match c.cands q with
  | none => none
  | some (c', xs) =>
    match collect (probe fuel c.chart q) (ord xs) with
    | none => none
    | some l => some (c', l)

/-- what a client does with a chart -/
inductive Op (K : Type)
  | set (item : Tm) (v : K)
  | query (q : Tm)

def step (c : Chart K) : Op K → Chart K
  | .set x v => c.setitem x v
  | .query q => match c.cands q with
    | none => c
    | some (c', _) => c'

end Chart
end Verif
