/-
`Program.constant_folding()`: `ConstantFolded.__init__` and `_split_const_and_symbolic`
(`/repo/dyna/program.py` 2258-2353).

`ord` stands for `sorted(xs, key=_subgoal_sort_key)` (77-87, 2318).  `dead` is the zero test of
`constant_folding_rhs`.  `sr.chart()` comes from the package `semirings`, which is not part of the repository:
a dictionary whose missing entries are zero.
-/
import Verif.ProgUpdate

set_option linter.unusedSectionVars false
set_option linter.unusedSimpArgs false

namespace Verif
open Tm

namespace CFold
variable {K : Type} [CommSemiring K] [DecidableEq K]

/-- `_split_const_and_symbolic` (2343-2353); what is left of a folded rule are subgoals -/
def split (r : WRule K) : K × List Tm :=
  match r.body with
  | .val c :: b => (c, WRule.subs b)
  | b => (1, WRule.subs b)

/-- the key of a bucket (2319) -/
def key (cv : Nat → Nat) (ord : List Tm → List Tm) (h : Tm) (xs : List Tm) : Tm :=
  canonP cv (.app (.con (.str "$skel") :: h :: ord xs))

/-- `merged`: head, subgoals and accumulated coefficient by key -/
abbrev Buckets (K : Type) := Dict Tm (Tm × List Tm × K)

/-- one round of the second loop (2311-2324) -/
def add (cv : Nat → Nat) (ord : List Tm → List Tm) (d : Buckets K) (r : WRule K) : Buckets K :=
  let cx := split r
  let k := key cv ord r.head cx.2
  match d.get k with
  | some (h, xs, total) => d.set k (h, xs, total + cx.1)
  | none => d.set k (r.head, cx.2, cx.1)

/-- the rules emitted for the buckets with subgoals (2333-2336) -/
def symbolic (b : Tm × List Tm × K) : Option (WRule K) :=
  if b.2.1 = [] then none
  else if b.2.2 = 1 then some ⟨b.1, b.2.1.map .sub⟩
  else some ⟨b.1, .val b.2.2 :: b.2.1.map .sub⟩

/-- `chart[canonicalize(head)] += total` (2331-2332) -/
def addChart (cv : Nat → Nat) (d : Dict Tm K) (b : Tm × List Tm × K) : Dict Tm K :=
  if b.2.1 = [] then d.set (canonP cv b.1) ((d.get (canonP cv b.1)).getD 0 + b.2.2) else d

/-- the buckets after both loops -/
def merged (cv : Nat → Nat) (ord : List Tm → List Tm) (dead : K → Bool) (p : List (WRule K)) : Buckets K :=
  (p.filterMap (WRule.fold dead)).foldl (add cv ord) []

/-- `constant_folding()`: the rules of the new program -/
def folded (cv : Nat → Nat) (ord : List Tm → List Tm) (dead : K → Bool) (p : List (WRule K)) : List (WRule K) :=
  let bs := (merged cv ord dead p).map Prod.snd
  bs.filterMap symbolic ++ (bs.foldl (addChart cv) []).map fun c => ⟨c.1, [.val c.2]⟩

end CFold
end Verif
