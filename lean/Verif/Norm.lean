/-
Flattening of rules: `Program.normalize_unification2` (`/repo/dyna/program.py` 1865-1952).

`k` counts the variables made by `Var()`; the `n`-th one is the variable `n`.  The rules of a program hold no bound variables,
so that `isinstance(x, Var)` means that the term is a variable.  `none` is the `ValueError` of the unpackings (1938, 1944).
-/
import Verif.Sem

set_option linter.unusedSectionVars false
set_option linter.unusedSimpArgs false

namespace Verif
open Tm

namespace Norm
variable {W : Type}

mutual
/-- `f(x)` (1902-1917): the returned term, the unifications `z = t` appended to `result`, and the counter -/
def flat : Tm → Nat → Tm × List (Nat × Tm) × Nat
  | .var n, k => (.var n, [], k)                                                    -- 1905
  | .con c, k => (.var k, [(k, .con c)], k + 1)                                     -- 1914-1917
  | .app [], k => (.var k, [(k, .app [])], k + 1)                                   -- not a term
  | .app (g :: as), k =>
    let r := flatL as (k + 1)                                                       -- `z = Var()` first (1910)
    (.var k, r.2.1 ++ [(k, .app (g :: r.1))], r.2.2)                                -- 1911-1912
/-- `[f(y) for y in x]` (1904) -/
def flatL : List Tm → Nat → List Tm × List (Nat × Tm) × Nat
  | [], k => ([], [], k)
  | a :: as, k =>
    let r := flat a k
    let rs := flatL as r.2.2
    (r.1 :: rs.1, r.2.1 ++ rs.2.1, rs.2.2)
end

/-- the subgoal `z = t` -/
def eqn (p : Nat × Tm) : Lit W := .sub (.app [.con (.str "="), .var p.1, p.2])

/-- `[*tmps, [_, _, h]] = normalize(x)` -/
def unpack (x : Tm) (k : Nat) : Option (List (Nat × Tm) × Tm × Nat) :=
  let r := flat x k
  match r.2.1.getLast? with
  | none => none
  | some (_, h) => some (r.2.1.dropLast, h, r.2.2)

def isVar : Tm → Bool
  | .var _ => true
  | _ => false

/-- the right-hand side of a shallow unification (1930-1934) -/
def shallow : Tm → Bool
  | .app (_ :: as) => as.all isVar
  | _ => true

/-- `is_normal_form(y)` for a term (1921-1935) -/
def isNF : Tm → Bool
  | .app [.con (.str "="), v, rhs] => isVar v && shallow rhs
  | .app (_ :: as) => as.all isVar
  | _ => false

/-- the loop over the body (1940-1946) -/
def body : List (Lit W) → Nat → Option (List (Lit W) × Nat)
  | [], k => some ([], k)
  | .val w :: b, k => match body b (k + 1) with             -- `normalize(w)` is `[z = w]`
    | none => none
    | some r => some (.val w :: r.1, r.2)
  | .sub y :: b, k =>
    if isNF y then match body b k with
      | none => none
      | some r => some (.sub y :: r.1, r.2)
    else match unpack y k with
      | none => none
      | some (ts, yy, k) => match body b k with
        | none => none
        | some r => some (ts.map eqn ++ .sub yy :: r.1, r.2)

/-- one rule (1937-1948) -/
def rule (r : WRule W) (k : Nat) : Option (WRule W × Nat) :=
  match unpack r.head k with
  | none => none
  | some (ts, h, k) => match body r.body k with
    | none => none
    | some (ys, k) => some (⟨h, ts.map eqn ++ ys⟩, k)

/-- `normalize_unification2` -/
def normalize : List (WRule W) → Nat → Option (List (WRule W) × Nat)
  | [], k => some ([], k)
  | r :: rs, k => match rule r k with
    | none => none
    | some (r', k) => match normalize rs k with
      | none => none
      | some (rs', k) => some (r' :: rs', k)

end Norm
end Verif
