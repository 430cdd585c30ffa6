/-
Pruning with type analysis: `_prune_specialize` and `_prune_dead` (`/repo/dyna/analyze/dead.py` 181-196), called
from `Program.prune` (`/repo/dyna/program.py` 1802-1817) with the chart of `type_analysis` (1955-1958) or of
`usefulness_analysis` (1960-1968).

`Program.join`, `lookup_vals` and `lookup` are those of TypeAn.lean, the type analysis is `TypeAn.runBasic`, `_useful`
is `Magic.useful`, `DisjointEstimate` is that of TermSets.lean (`fv`/`cv` are its allocated and canonical variables).
A constant of a rule body is looked up with exactly one result (program.py:1267-1269), so constants are left out
of the joins.  The rules of the program have variables below the allocation mark `k`.
Simplified: unfolding `X += $useful(X).` by the chart (1967) takes the argument of the types with the functor
`$useful`.  Not modelled: that the same program object is returned if nothing changes (187, 193-194), and the
transformation history.
-/
import Verif.TypeAn
import Verif.Magic
import Verif.TermSets

set_option linter.unusedSectionVars false
set_option linter.unusedSimpArgs false

namespace Verif
namespace PruneTypes
open Tm Heap
open Rewrites (Ty)
open Solver (noHeap forEach)
open Unfold (Ops derefR freshR)
open Linearize (Sigs)
variable {W : Type}

/-- the subgoals of a body, without the constants -/
def subgoals (b : List (Lit W)) : List Tm := b.filterMap fun | .sub t => some t | .val _ => none

/-- `Program([Rule(x) for x in D])` (dead.py:183) as far as `join` is concerned: no inputs -/
def plainCfg (ops : Ops) (one : Const) : TypeAn.Cfg := ⟨[], [], ops, one, fun _ _ => .none, fun _ _ _ => none, 0⟩

/-- `fresh(r)` under the current bindings, appended to the new rules (dead.py:185) -/
def emit (f : Nat) (r : WRule W) : Body (List (WRule W) × Nat) := fun h s =>
  match derefR h f r with
  | none => none
  | some t =>
    let t := freshR s.2 t
    some (h, (s.1 ++ [t.1], t.2), .done)

/-- `[fresh(r) for r in p for _ in S.join(r.head, *r.body)]` (dead.py:185) -/
def specRules (ops : Ops) (one : Const) (f k : Nat) (S : List Tm) (p : List (WRule W)) : Option (List (WRule W) × Nat) :=
  match forEach p (fun r => TypeAn.join (plainCfg ops one) f (S.map fun s => (s, [])) (r.head :: subgoals r.body) fun _ => emit f r)
      noHeap ([], k) with
  | some (_, s, .done) => some s
  | _ => none

/-- `_prune_specialize(p, analysis)` (dead.py:181-187); `m` is the allocation mark of `fv` -/
def pruneSpecialize (ops : Ops) (one : Const) (fv cv : Nat → Nat) (f m k : Nat) (p : List (WRule W)) (analysis : List Ty) :
    Option (List (WRule W) × Nat) :=
  match addAll (DisjointEst.add fv cv f) ⟨[], m⟩ (analysis.map Prod.fst) with           -- 182
  | none => none
  | some D => specRules ops one f k D.xs p

/-- the signal with which `any` leaves the generator -/
abbrev found : Sig := .exc 20

/-- `any(True for _ in analysis.join(r.head, *r.body))` (dead.py:192) -/
def alive (g : TypeAn.Cfg) (f k : Nat) (analysis : List Ty) (r : WRule W) : Option Bool :=
  match TypeAn.join (S := Unit) g f analysis (r.head :: subgoals r.body) (fun _ h s => some (h, s, found)) noHeap ((), k) with
  | some (_, _, .done) => some false
  | some (_, _, .exc 20) => some true
  | _ => none

/-- `_prune_dead(p, analysis)` (dead.py:190-196) -/
def pruneDead (g : TypeAn.Cfg) (f k : Nat) (p : List (WRule W)) (analysis : List Ty) : Option (List (WRule W)) :=
  match p with
  | [] => some []
  | r :: p => match alive g f k analysis r, pruneDead g f k p analysis with
    | some b, some q => some (if b then r :: q else q)
    | _, _ => none

/-- the chart of `usefulness_analysis` (program.py:1967) -/
def usefulTypes (ch : List Ty) : List Ty := ch.filterMap fun t => match t with
  | (.app [.con (.str "$useful"), x], b) => some (x, b)
  | _ => none

/-- which analysis `prune` uses (program.py:1809-1812) -/
inductive Mode (W : Type)
  | bottomUp
  | useful (sig : Sigs) (outputs : List (WRule W))

/-- the rules that are analyzed: those of the program, or of `_useful` (1962), and those of the input type `T` -/
def analyzed (mode : Mode W) (p T : List (WRule W)) : List (WRule W) :=
  match mode with
  | .bottomUp => p ++ T
  | .useful sig outs => Magic.useful sig p outs ++ T

/-- the chart that `prune` uses (1809-1812); the rules of `g` are replaced by the analyzed ones -/
def chart (mode : Mode W) (g : TypeAn.Cfg) (f n k : Nat) (p T : List (WRule W)) : Option (List Ty × Nat) :=
  match TypeAn.runBasic { g with rules := TypeAn.toTypeProgram (analyzed mode p T) } f n k with
  | none => none
  | some (ch, k) => match mode with
    | .bottomUp => some (ch, k)
    | .useful _ _ => some (usefulTypes ch, k)

/-- `prune(specialize=True)` (1802-1817) -/
def pruneSpec (mode : Mode W) (g : TypeAn.Cfg) (fv cv : Nat → Nat) (f n m k : Nat) (p T : List (WRule W)) : Option (List (WRule W) × Nat) :=
  match chart mode g f n k p T with
  | none => none
  | some (ch, k) => pruneSpecialize g.ops g.one fv cv f m k p ch

/-- the program that `_prune_dead` joins with: `Program('X += $useful(X).') + …` (1967) has no inputs -/
def joinCfg (mode : Mode W) (g : TypeAn.Cfg) : TypeAn.Cfg :=
  match mode with
  | .bottomUp => g
  | .useful _ _ => { g with inputs := [] }

/-- `prune(specialize=False)` (1802-1817) -/
def pruneKeep (mode : Mode W) (g : TypeAn.Cfg) (f n k : Nat) (p T : List (WRule W)) : Option (List (WRule W)) :=
  match chart mode g f n k p T with
  | none => none
  | some (ch, k) => pruneDead (joinCfg mode g) f k p ch

end PruneTypes
end Verif
