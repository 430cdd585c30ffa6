/-
The mutable store of variable bindings and the destructive operations of `/repo/dyna/term.py`:
`snap` (733-739), `deref` (866-875), `Var.__eq__`/`Term.__eq__` (166-174, 366-368),
`Var.occurs_check` (136-152), `is_ground` (723-730), `unify`/`unifyN` (377-421), `unifies` (824-829).

A store maps a variable to its `.value` (`none` = `null_ptr`).  Recursion through the store is given
fuel; the outer `none` of a result means "fuel exhausted" and nothing else.
Python `list`/`tuple` arguments of unify are not modelled separately (a `Term` is its `fargs`).
-/
import Verif.Term

namespace Verif
open Tm

/-- `Var.value` for every variable. -/
abbrev Heap := Nat → Option Tm

namespace Heap

/-- `x.value = v` -/
def upd (h : Heap) (x : Nat) (v : Option Tm) : Heap := fun n => if n = x then v else h n

/-- all results or none -/
def allSome {α : Type*} : List (Option α) → Option (List α)
  | [] => some []
  | none :: _ => none
  | some a :: l => (allSome l).map (a :: ·)

/-- `snap(x)` (term.py:733-739) -/
def snapF (h : Heap) : Nat → Tm → Option Tm
  | 0, _ => none
  | f + 1, .var n => match h n with
    | some t => snapF h f t
    | none => some (.var n)
  | _ + 1, t => some t

/-- `deref(x)` (term.py:866-875) -/
def derefF (h : Heap) : Nat → Tm → Option Tm
  | 0, _ => none
  | f + 1, .var n => match h n with
    | some t => derefF h f t
    | none => some (.var n)
  | _ + 1, .con c => some (.con c)
  | f + 1, .app as => (allSome (as.map (derefF h f))).map .app

mutual
/-- `x == y` (term.py:166-174 for variables, 366-368 for terms): dereference, then compare variables
by identity and terms elementwise. -/
def eqF (h : Heap) : Nat → Tm → Tm → Option Bool
  | 0, _, _ => none
  | f + 1, x, y => match x, y with
    | .var n, y => match h n with
      | some t => eqF h f t y
      | none => match y with
        | .var m => match h m with
          | some t => eqF h f (.var n) t
          | none => some (n == m)
        | _ => some false
    | x, .var m => match h m with
      | some t => eqF h f x t
      | none => some false
    | .con a, .con b => some (a == b)
    | .app as, .app bs => eqLF h f as bs
    | _, _ => some false
/-- tuple equality of `fargs` -/
def eqLF (h : Heap) : Nat → List Tm → List Tm → Option Bool
  | 0, _, _ => none
  | _ + 1, [], [] => some true
  | f + 1, a :: as, b :: bs => match eqF h f a b with
    | none => none
    | some false => some false
    | some true => eqLF h f as bs
  | _ + 1, _, _ => some false
end

mutual
/-- `v.occurs_check(x)` (term.py:136-152) with the check enabled -/
def occursF (h : Heap) : Nat → Nat → Tm → Option Bool
  | 0, _, _ => none
  | f + 1, v, x => match x with
    | .var n => if n = v then some true else
      match h n with
      | some t => occursF h f v t
      | none => some false
    | .con _ => some false
    | .app as => occursLF h f v as
def occursLF (h : Heap) : Nat → Nat → List Tm → Option Bool
  | 0, _, _ => none
  | _ + 1, _, [] => some false
  | f + 1, v, a :: as => match occursF h f v a with
    | none => none
    | some true => some true
    | some false => occursLF h f v as
end

mutual
/-- `is_ground(x)` (term.py:723-730) -/
def groundF (h : Heap) : Nat → Tm → Option Bool
  | 0, _ => none
  | f + 1, x => match x with
    | .var n => match h n with
      | some t => groundF h f t
      | none => some false
    | .con _ => some true
    | .app as => groundLF h f as
def groundLF (h : Heap) : Nat → List Tm → Option Bool
  | 0, _ => none
  | _ + 1, [] => some true
  | f + 1, a :: as => match groundF h f a with
    | none => none
    | some false => some false
    | some true => groundLF h f as
end

/-- How a stretch of Python code ends: falls through, leaves the enclosing loop early
(`break`/`return`/generator closed), or raises. -/
inductive Sig
  | done
  | brk
  | exc (e : Nat)
deriving DecidableEq

/-- The body of a `for _ in unify(x, y):` loop (or whatever consumes the generator): it may change the
store and the rest of the program state `S`, and says how it ended. -/
abbrev Body (S : Type) := Heap → S → Option (Heap × S × Sig)

mutual
/-- `for _ in unify(x, y): body` (term.py:377-409), the body being the consumer of the generator.
The branch that binds a variable restores it in a `finally`, hence whichever way the body ends. -/
def unifyF {S : Type} : Nat → Tm → Tm → Body S → Body S
  | 0, _, _, _, _, _ => none
  | f + 1, x, y, body, h, s =>
    match eqF h f x y with
    | none => none
    | some true => body h s                                          -- 379-380
    | some false =>
      match x with
      | .var n =>
        match h n with
        | some t => unifyF f t y body h s                            -- 383-384
        | none =>
          match y with
          | .var m =>
            match h m with
            | some t => unifyF f (.var n) t body h s                 -- 386-387
            | none => bindF f n (.var m) body h s
          | y => bindF f n y body h s
      | x =>
        match y with
        | .var m => unifyF f (.var m) x body h s                     -- 405-406
        | y =>
          match x, y with
          | .app as, .app bs =>
            if as.length = bs.length then unifyNF f as bs body h s    -- 408-409
            else some (h, s, .done)
          | _, _ => some (h, s, .done)
/-- the binding branch of `unify` (term.py:389-403) -/
def bindF {S : Type} : Nat → Nat → Tm → Body S → Body S
  | 0, _, _, _, _, _ => none
  | f + 1, n, y, body, h, s =>
    match occursF h f n y with
    | none => none
    | some true => some (h, s, .done)
    | some false =>
      let was := h n
      match body (h.upd n (some y)) s with
      | none => none
      | some (h', s', sig) => some (h'.upd n was, s', sig)
/-- `for _ in unifyN(xs, ys): body` (term.py:412-421) -/
def unifyNF {S : Type} : Nat → List Tm → List Tm → Body S → Body S
  | 0, _, _, _, _, _ => none
  | _ + 1, [], [], body, h, s => body h s
  | f + 1, x :: xs, y :: ys, body, h, s => unifyF f x y (fun h' s' => unifyNF f xs ys body h' s') h s
  | _ + 1, _, _, _, h, s => some (h, s, .done)       -- excluded by the length assertion
end

/-- `unifies(A, B)` (term.py:824-829) -/
def unifiesF (f : Nat) (x y : Tm) (h : Heap) : Option Bool :=
  (unifyF (S := Bool) f x y (fun h _ => some (h, true, .done)) h false).map (·.2.1)

end Heap
end Verif
