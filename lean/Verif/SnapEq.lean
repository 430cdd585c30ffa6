/-
Solving unification constraints in rule bodies: `Product.snap_unifications` (`/repo/dyna/term.py` 204-216)
and `Program.snap_unifications` (`/repo/dyna/program.py` 1465-1477).

The rules produced are dereferenced (`new.append`, i.e. `update`, works on the values that the bindings give
at that moment: `canonicalize` and `fresh` follow bindings).  Folding of constants by `update` is the
subject of `ProgUpdate`.
-/
import Verif.ProgUpdate

set_option linter.unusedSectionVars false
set_option linter.unusedSimpArgs false

namespace Verif
open Tm Heap
namespace SnapEq
variable {K : Type}

/-- `ValueError` of the unpacking `[_,a,b] = x0` (term.py:211) -/
abbrev valueError : Sig := .exc 7

/-- the functor symbol of equality subgoals -/
abbrev eqFn : Tm := .con (.str "=")

/-- `for ys in body.snap_unifications(): k(ys)` (term.py:204-216) -/
def snapF {S : Type} (f : Nat) : List (Lit K) → (List (Lit K) → Body S) → Body S
  | [], k, h, s => k [] h s                                              -- 205-207
  | .sub (.app (g :: as)) :: b, k, h, s =>
    match eqF h f g eqFn with                                            -- `x0.fn == '='`, 210
    | none => none
    | some true => match as with
      | [x, y] => unifyF f x y (fun h s => snapF f b k h s) h s          -- 211-213
      | _ => some (h, s, valueError)
    | some false => snapF f b (fun ys => k (.sub (.app (g :: as)) :: ys)) h s   -- 215-216
  | x0 :: b, k, h, s => snapF f b (fun ys => k (x0 :: ys)) h s           -- 215-216

/-- follow the bindings in one body element -/
def derefLit (h : Heap) (f : Nat) : Lit K → Option (Lit K)
  | .val c => some (.val c)
  | .sub t => (derefF h f t).map .sub

/-- `new.append(Rule(r.head, *ys))` (program.py:1475) under the bindings of the moment -/
def push (f : Nat) (head : Tm) (ys : List (Lit K)) : Body (List (WRule K)) := fun h s =>
  match derefF h f head, allSome (ys.map (derefLit h f)) with
  | some hd, some b => some (h, s ++ [⟨hd, b⟩], .done)
  | _, _ => none

/-- the double loop (program.py:1473-1475) -/
def snapProg (f : Nat) : List (WRule K) → Body (List (WRule K))
  | [], h, s => some (h, s, .done)
  | r :: rs, h, s =>
    match snapF f r.body (push f r.head) h s with
    | none => none
    | some (h, s, .done) => snapProg f rs h s
    | some q => some q

end SnapEq
end Verif
