/-
Looking up subgoals in a program that serves as a chart: `Program.__getitem__` (program.py:1230-1240),
`join` (1241-1242), `lookup_vals` (1259-1266), `lookup` (1273-1371), `join_f` (term.py:44-56) and the
streams `ResultStream`, `Join`, `Constant` (term.py:1057-1172).

A chart is a list of entries `(head, result)`: the rules of the chart program with one element in the body,
in order.  Its heads are ground here (charts of range-restricted programs), so freshening a chart rule
changes nothing.  Every generator is modelled by running its consumer at each yield, on the destructive
store of `Verif.Heap`.  Not modelled: `is`, `$not_matches`, `$lift`, input relations, and delayed builtins
(a comparison that is not ground when it is reached is the signal `delayed`).
-/
import Verif.Solver
import Verif.ProgIndex

set_option linter.unusedSectionVars false
set_option linter.unusedSimpArgs false

namespace Verif
open Tm Heap

namespace Query
variable {K β S : Type}

/-- outside of the modelled part: delayed builtins, constants reached through a variable -/
abbrev delayed : Sig := .exc 5
abbrev constSub : Sig := .exc 6

/-- a program used as a chart: its rules `head += result` and the flag `has_builtins` (program.py:110) -/
structure Src (β : Type) where
  ent : List (Tm × β)
  bi : Bool

/-- the rules tried for the query `q` (1287-1292 for a variable, 1364-1371 through `f2r`) -/
def offered (ent : List (Tm × β)) : Tm → List (Tm × β)
  | .var _ => ent
  | .app (.con c :: _) => ent.filter fun e => hfn e.1 == some c
  | _ => []

/-- `for b in src.lookup_vals(z): k(b)` (1259-1266 and 1273-1371); `emb` turns a semiring value into a result -/
def lookupVals [One K] (f : Nat) (emb : K → β) (src : Src β) (z : BLit K) (k : β → Body S) : Body S := fun h s =>
  match z with
  | .val c => if src.bi then k (emb c) h s else some (h, s, .done)                         -- 1264-1266
  | .eq x y => if src.bi then unifyF f x y (k (emb 1)) h s else some (h, s, .done)         -- 1333-1338
  | .cmp o x y =>                                                                          -- 1317-1331
    if src.bi then
      match groundF h f x, groundF h f y, derefF h f x, derefF h f y with
      | some true, some true, some x', some y' => if o x' y' then k (emb 1) h s else some (h, s, .done)
      | some _, some _, some _, some _ => some (h, s, delayed)
      | _, _, _, _ => none
    else some (h, s, .done)
  | .sub q =>
    match derefF h f q with
    | none => none
    | some (.con _) => some (h, s, constSub)
    | some q' => Solver.forEach (offered src.ent q') (fun e => unifyF f e.1 q (k e.2)) h s

/-- `join_f` (term.py:44-56) and `Join` (term.py:1107-1119): the results of a conjunction, every subgoal
looked up in its own chart -/
def joinZ [One K] (f : Nat) (emb : K → β) : List (Src β × BLit K) → List β → (List β → Body S) → Body S
  | [], acc, k => k acc
  | (src, z) :: xs, acc, k => lookupVals f emb src z fun b => joinZ f emb xs (acc ++ [b]) k

/-- `for y in chart[body]: k(y)` (1230-1240): an empty body is the constant `one` -/
def getItem [One K] (f : Nat) (emb : K → β) (src : Src β) (body : List (BLit K)) (k : List β → Body S) : Body S :=
  match body with
  | [] => k [emb 1]
  | _ => joinZ f emb (body.map fun z => (src, z)) [] k

end Query
end Verif
