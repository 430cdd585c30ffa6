/-
Top-down enumeration of derivations: `sld` (derivations.py:428-452) on `Program.lookup` (program.py:1273-1371).

The generator is modelled by running its consumer at each yield, on the destructive store of `Verif.Heap`.
Renamed copies of rules (`FreshCache`, term.py:878-901) use the variables from a mark `nx` on; a copy goes back to
the pool when the loop over the answers for its rule is over, and so does the mark.  A derivation is built from
terms that the consumer sees through the current bindings.  `Derivation.__init__` (24-39) checks that the rule
covers its instance; it does by construction (this is part of C70), so the check is not modelled.
A comparison that is not ground when it is reached rewrites to itself and `sld` recurses until Python gives up
(447-449): the signal `recursion`.  Not modelled: `is`, `$not_matches`, `$lift`, input relations, constants reached
through a variable.
-/
import Verif.Deriv

set_option linter.unusedSectionVars false
set_option linter.unusedSimpArgs false

namespace Verif
open Tm Heap

namespace Sld
open Solver (forEach noHeap)
open Query (constSub)
variable {K S : Type}

abbrev recursion : Sig := .exc 10

/-- a term, a body element of the copy made at the mark `nx` (term.py:597-599) -/
def shift (nx : Nat) (t : Tm) : Tm := t.sub fun n => .var (nx + n)

def shiftLit (nx : Nat) : BLit K → BLit K
  | .val c => .val c
  | .sub t => .sub (shift nx t)
  | .eq x y => .eq (shift nx x) (shift nx y)
  | .cmp o x y => .cmp o (shift nx x) (shift nx y)

/-- all variables of a term, a rule are below this number -/
def bound (t : Tm) : Nat := (vars t).sup (· + 1)

def boundLit : BLit K → Nat
  | .val _ => 0
  | .sub t => bound t
  | .eq x y => max (bound x) (bound y)
  | .cmp _ x y => max (bound x) (bound y)

def width (r : SRule K) : Nat := r.body.foldr (fun z n => max (boundLit z) n) (bound r.head)

/-- the rules tried for the query `q`, with their numbers (1287-1292 for a variable, 1364-1371 through `f2r`) -/
def offered (rules : List (SRule K)) : Tm → List (SRule K × Nat)
  | .var _ => rules.zipIdx
  | .app (.con c :: _) => rules.zipIdx.filter fun p => hfn p.1.head == some c
  | _ => []

mutual
/-- `for d in sld(p, x): k(d)` for one subgoal (443-452) -/
def sldF (rules : List (SRule K)) : Nat → Nat → BLit K → (Deriv K → Nat → Body S) → Body S
  | 0, _, _, _, _, _ => none
  | f + 1, nx, z, k, h, s => match z with
    | .val c => k (.const c) nx h s                                                        -- 443-445
    | .eq x y => unifyF f x y (k (.bi x y) nx) h s                                         -- program.py:1332-1338
    | .cmp o x y =>                                                                        -- 1317-1331
      match groundF h f x, groundF h f y, derefF h f x, derefF h f y with
      | some true, some true, some x', some y' => if o x' y' then k (.bi x y) nx h s else some (h, s, .done)
      | some _, some _, some _, some _ => some (h, s, recursion)
      | _, _, _, _ => none
    | .sub q =>                                                                            -- 450-452
      match derefF h f q with
      | none => none
      | some (.con _) => some (h, s, constSub)
      | some q' => forEach (offered rules q') (fun p => unifyF f (shift nx p.1.head) q
          (sldLF rules f (nx + width p.1) (p.1.body.map (shiftLit nx)) fun ds nx' => k (.node p.2 (shift nx p.1.head) ds) nx')) h s
/-- `for ds in sld(p, xs): k(ds)` for a conjunction (435-442) -/
def sldLF (rules : List (SRule K)) : Nat → Nat → List (BLit K) → (List (Deriv K) → Nat → Body S) → Body S
  | 0, _, _, _, _, _ => none
  | _ + 1, nx, [], k, h, s => k [] nx h s
  | f + 1, nx, z :: zs, k, h, s => sldF rules f nx z (fun d nx' => sldLF rules f nx' zs fun ds nx'' => k (d :: ds) nx'') h s
end

mutual
/-- a derivation as it looks under the current bindings -/
def derefD (h : Heap) (f : Nat) : Deriv K → Option (Deriv K)
  | .const k => some (.const k)
  | .bi x y => match derefF h f x, derefF h f y with
    | some x', some y' => some (.bi x' y')
    | _, _ => none
  | .node i x ds => match derefF h f x, derefDL h f ds with
    | some x', some ds' => some (.node i x' ds')
    | _, _ => none
def derefDL (h : Heap) (f : Nat) : List (Deriv K) → Option (List (Deriv K))
  | [] => some []
  | d :: ds => match derefD h f d, derefDL h f ds with
    | some d', some ds' => some (d' :: ds')
    | _, _ => none
end

/-- a consumer that copies the derivations and stops after `lim` of them, as in `take(lim, p.sld(x))` -/
def collect (lim : Option Nat) (f : Nat) (d : Deriv K) : Body (List (Deriv K)) := fun h s =>
  match derefD h f d with
  | none => none
  | some d' => some (h, s ++ [d'], if lim = some (s.length + 1) then .brk else .done)

/-- `take(lim, p.sld(x))`, all of `p.sld(x)` for `none` -/
def sldQ (rules : List (SRule K)) (lim : Option Nat) (f : Nat) (x : Tm) : Option (List (Deriv K) × Sig) :=
  (sldF rules f (bound x) (.sub x) (fun d _ => collect lim f d) noHeap []).map (·.2)

end Sld
end Verif
