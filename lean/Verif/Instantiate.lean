/-
Instantiating a program against a chart: `Program.groundings` (program.py:1178-1186) and
`Program.instantiate` (1188-1196), on the lookups of `Verif.Query`.

`fresh((r, v))` (1184) copies the rule with the current bindings in place and renames what is still unbound;
the rules of range-restricted programs have no unbound variables at that moment, so the copy is the dereferenced
rule.  A chart is a dictionary as in `Verif.Naive`.  Not modelled: the attributes `inputs` of the result (1195)
and what `spawn` copies (1191), and `GroundingsPrinter`.
-/
import Verif.Naive

set_option linter.unusedSectionVars false
set_option linter.unusedSimpArgs false

namespace Verif
open Tm Heap

namespace Instantiate
open Solver (forEach noHeap)
open Query
variable {K : Type} [CommSemiring K]

/-- an element of a body with the current bindings in place -/
def derefLit (h : Heap) (f : Nat) : BLit K → Option (BLit K)
  | .val c => some (.val c)
  | .sub q => (derefF h f q).map .sub
  | .eq x y => match derefF h f x, derefF h f y with
    | some x', some y' => some (.eq x' y')
    | _, _ => none
  | .cmp o x y => match derefF h f x, derefF h f y with
    | some x', some y' => some (.cmp o x' y')
    | _, _ => none

/-- `fresh(r)` of a rule without unbound variables (1184) -/
def derefRule (h : Heap) (f : Nat) (r : SRule K) : Option (SRule K) :=
  match derefF h f r.head, r.body.mapM (derefLit h f) with
  | some hd, some b => some ⟨hd, b⟩
  | _, _ => none

/-- `Grounding(i, rule, value)` (1186): the index of the rule, the instance and the values of its body -/
abbrev Grounding (K : Type) := Nat × SRule K × List K

/-- `yield Grounding(i, gr, gv)` (1184-1186), collected in a list -/
def pushG (f i : Nat) (r : SRule K) (P : List K) : Body (List (Grounding K)) := fun h G =>
  match derefRule h f r with
  | some r' => some (h, G ++ [(i, r', P)], .done)
  | none => none

/-- `list(groundings(chart))` (1178-1186) -/
def groundings (f : Nat) (rules : List (SRule K)) (chart : Dict Tm K) : Option (List (Grounding K) × Sig) :=
  (forEach rules.zipIdx (fun p => getItem f id ⟨chart, true⟩ p.1.body (pushG f p.2 p.1)) noHeap []).map (·.2)

/-- the rules of `instantiate(chart)` (1188-1196): appended directly to the list of rules (1194), so nothing is
merged or simplified -/
def instantiate (f : Nat) (rules : List (SRule K)) (chart : Dict Tm K) : Option (List (SRule K)) :=
  match groundings f rules chart with
  | some (G, .done) => some (G.map fun g => g.2.1)
  | _ => none

end Instantiate
end Verif
