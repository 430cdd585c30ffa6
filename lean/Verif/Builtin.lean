/-
The arithmetic builtins of `/repo/dyna/builtin.py`: `Builtins._dispatch` (lines 176-424) and
`Builtins.is_ready` (lines 121-132), for queries whose arguments are variables, numbers and strings.

Simplified: arguments that are compound terms are not modelled; floats are rational numbers and every
float result goes through an arbitrary rounding function `rnd` (overflow, infinities and NaN are not
modelled); the fall-back to indirect evaluation (`_indirect_is`, lines 144-174) is the outcome
`notBuiltin`.
-/
import Mathlib.Algebra.Field.Rat
import Mathlib.Algebra.Order.Ring.Rat
import Mathlib.Algebra.Order.Field.Basic
import Mathlib.Tactic.FieldSimp
import Mathlib.Tactic.Linarith
import Mathlib.Tactic.Ring

set_option linter.unusedSectionVars false
set_option linter.unusedSimpArgs false

namespace Verif
namespace Builtin

/-- Python values an argument can hold (builtin.py:16-20): `bool`, `int`, `float`, `str`. -/
inductive Val
  | bool (b : Bool)
  | int (z : Int)
  | flt (q : ℚ)
  | str (s : List Char)
deriving DecidableEq

/-- `isnum` with the number itself (builtin.py:18); a bool is the number 0 or 1. -/
def num? : Val → Option ℚ
  | .bool b => some (if b then 1 else 0)
  | .int z => some z
  | .flt q => some q
  | .str _ => none

/-- `isint` with the integer (builtin.py:17): Python's `bool` is a subclass of `int`. -/
def int? : Val → Option Int
  | .bool b => some (if b then 1 else 0)
  | .int z => some z
  | _ => none

/-- Python's `==` on these values: numbers by value, whatever their type. -/
def pyeq (a b : Val) : Bool :=
  match num? a, num? b with
  | some x, some y => x == y
  | none, none => a == b
  | _, _ => false

/-- Python's `<` (`none`: TypeError): numbers by value, strings by code points. -/
def pylt (a b : Val) : Option Bool :=
  match a, b with
  | .str s, .str t => some (decide (List.Lex (fun c d : Char => c.val < d.val) s t))
  | a, b =>
    match num? a, num? b with
    | some x, some y => some (decide (x < y))
    | _, _ => none

/-- An argument after `snap` (builtin.py:179, 288-290): a free variable or a value. -/
inductive Arg
  | var (n : Nat)
  | val (v : Val)
deriving DecidableEq

/-- An answer: the bindings in force at a `yield`, in the order they were made. -/
abbrev Ans := List (Nat × Arg)

/-- Follow bindings (`Var.value`, term.py:100-177). -/
def walk : Ans → Arg → Arg
  | [], a => a
  | (n, b) :: e, a => walk e (if a = .var n then b else a)

/-- `unify` on variables and values (term.py:377-406). -/
def unify (e : Ans) (a b : Arg) : Option Ans :=
  match walk e a, walk e b with
  | .val v, .val w => if pyeq v w then some e else none
  | .var n, b => if b = .var n then some e else some (e ++ [(n, b)])
  | a, .var m => some (e ++ [(m, a)])

/-- What a call of the generator does: the answers it yields in order, an endless enumeration, or the
exception it raises (always before the first answer). -/
inductive Out
  | ans (l : List Ans)
  | enum (f : Nat → Ans)
  | instFault
  | typeError
  | zeroDiv
  | notBuiltin

/-- `yield from unify(x, y)`. -/
def u (x y : Arg) : Out := .ans (unify [] x y).toList

/-- Functors on the right of `is` (`IS_RHS_OPS`, builtin.py:70-71); `user` is any other functor. -/
inductive Fn
  | sub | add | abs | str | int | not | mul | div | min | max | range
  | lt | gt | ne | eq | le | ge | user
deriving DecidableEq

/-- The right-hand side of `is`: a literal or variable, or a term by its arity. -/
inductive Expr
  | lit (a : Arg)
  | un (f : Fn) (y : Arg)
  | bin (f : Fn) (y z : Arg)
  | tri (f : Fn) (x a b : Arg)

/-- The fall-through (builtin.py:415-424). -/
def fall (f : Fn) : Out := if f = .user then .notBuiltin else .instFault

variable (rnd : ℚ → ℚ)

/-- Conversion of a number to float in mixed arithmetic. -/
def toF : Val → ℚ
  | .flt q => q
  | .int z => rnd z
  | .bool b => if b then 1 else 0
  | .str _ => 0

/-- A binary operation on Python numbers: on ints by `f`, otherwise on floats by `g`. -/
def arith (f : Int → Int → Int) (g : ℚ → ℚ → ℚ) (v w : Val) : Val :=
  match int? v, int? w with
  | some a, some b => .int (f a b)
  | _, _ => .flt (rnd (g (toF rnd v) (toF rnd w)))

/-- `v * w`, `v + w`, `v - w` on numbers. -/
def pmul : Val → Val → Val := arith rnd (· * ·) (· * ·)
def padd : Val → Val → Val := arith rnd (· + ·) (· + ·)
def psub : Val → Val → Val := arith rnd (· - ·) (· - ·)

/-- `v / w` on numbers with `w ≠ 0`: a float, the rounded quotient. -/
def pdiv (v w : Val) : Val :=
  match int? v, int? w with
  | some a, some b => .flt (rnd ((a : ℚ) / (b : ℚ)))
  | _, _ => .flt (rnd (toF rnd v / toF rnd w))

/-- `-v`, `+v` and `abs(v)` on numbers. -/
def pneg (v : Val) : Val := match v with
  | .flt q => .flt (-q)
  | .int z => .int (-z)
  | .bool b => .int (if b then -1 else 0)
  | .str s => .str s
def ppos (v : Val) : Val := match v with
  | .bool b => .int (if b then 1 else 0)
  | v => v
def pabs (v : Val) : Val := match v with
  | .flt q => .flt |q|
  | .int z => .int |z|
  | .bool b => .int (if b then 1 else 0)
  | .str s => .str s

/-- `yield from unify(x, v / w)`. -/
def uDiv (x : Arg) (v w : Val) : Out :=
  if num? w = some 0 then .zeroDiv else u x (.val (pdiv rnd v w))

/-- `isnum` and `isstr` of an argument, with the value. -/
def Arg.num : Arg → Option Val
  | .val v => if (num? v).isSome then some v else none
  | .var _ => none
def Arg.strs : Arg → Option (List Char)
  | .val (.str s) => some s
  | _ => none

/-- `isnum(Y) and Y == c`. -/
def Arg.isC (a : Arg) (c : ℚ) : Bool :=
  match a with
  | .val v => num? v == some c
  | .var _ => false

/-- `'*'` (builtin.py:292-320). -/
def dMul (X Y Z : Arg) : Out :=
  match Y.strs with
  | some s =>
    match Z.num with
    | some z =>
      match int? z with
      | some k => u X (.val (.str (List.replicate k.toNat s).flatten))
      | none => .typeError                        -- str * float
    | none => .typeError                          -- the explicit raise, line 300
  | none =>
    match Y.num, Z.num, X.num with
    | some y, some z, _ => u X (.val (pmul rnd y z))
    | some y, none, some x => uDiv rnd Z x y
    | none, some z, some x => uDiv rnd Y x z
    | _, _, _ =>
      if Y.isC 1 then u X Z
      else if Z.isC 1 then u X Y
      else fall .mul

/-- Answers for all splits of a string (builtin.py:328-332). -/
def splits (s : List Char) (Y Z : Arg) : List Ans :=
  (List.range (s.length + 1)).flatMap fun k =>
    match unify [] Y (.val (.str (s.take k))) with
    | some e => (unify e Z (.val (.str (s.drop k)))).toList
    | none => []

/-- `'+'` (builtin.py:322-351). -/
def dAdd (X Y Z : Arg) : Out :=
  match Y.strs, Z.strs with
  | some s, some t => u X (.val (.str (s ++ t)))
  | _, _ =>
  match X.strs with
  | some s => .ans (splits s Y Z)
  | none =>
    match Y.num, Z.num, X.num with
    | some y, some z, _ => u X (.val (padd rnd y z))
    | some y, none, some x => u Z (.val (psub rnd x y))
    | none, some z, some x => u Y (.val (psub rnd x z))
    | _, _, _ =>
      if Y.isC 0 then u X Z
      else if Z.isC 0 then u X Y
      else fall .add

/-- The integers in the order of builtin.py:266-273: 0, 1, -1, 2, -2, … -/
def enumInt (i : Nat) : Int := if i % 2 = 1 then ((i / 2 : Nat) : Int) + 1 else -((i / 2 : Nat) : Int)

/-- Arity one (builtin.py:193-281). -/
def dUn (f : Fn) (X Y : Arg) : Out :=
  match f with
  | .sub =>
    match Y.num, X.num with
    | some y, _ => u X (.val (pneg y))
    | none, some x => u Y (.val (pneg x))
    | none, none => fall f
  | .add =>
    match Y.num, X.num with
    | some y, _ => u X (.val (ppos y))
    | none, some x => u Y (.val (ppos x))
    | none, none => fall f
  | .abs =>
    match Y.num, X.num with
    | some y, _ => u X (.val (pabs y))
    | none, some x =>                             -- `for y in {+X, -X}`
      .ans (((if pyeq (ppos x) (pneg x) then [ppos x] else [ppos x, pneg x]).map
        fun y => (unify [] Y (.val y)).toList).flatten)
    | none, none => fall f
  | .str =>
    match Y with
    | .val v => u X (.val (.bool (match v with | .str _ => true | _ => false)))
    | .var _ => fall f
  | .int =>
    match Y, X with
    | .val v, _ => u X (.val (.bool (int? v).isSome))
    | .var n, .val (.bool true) => .enum fun i => [(n, .val (.int (enumInt i)))]
    | .var _, _ => fall f
  | .not =>
    match Y, X with
    | .val (.bool b), _ => u X (.val (.bool (!b)))
    | .val _, _ => .instFault                     -- `assert_type`
    | .var _, .val (.bool b) => u Y (.val (.bool (!b)))
    | .var _, .val _ => .instFault
    | .var _, .var _ => fall f
  | f => fall f

/-- Evaluation of a comparison (builtin.py:363-391). -/
def cmpV (f : Fn) (v w : Val) : Option Bool :=
  match f with
  | .lt => pylt v w
  | .gt => pylt w v
  | .le => (pylt w v).map (!·)
  | .ge => (pylt v w).map (!·)
  | .eq => some (pyeq v w)
  | .ne => some (!pyeq v w)
  | _ => none

/-- Arity two (builtin.py:283-401).  `X is Y / Z` is run as `Y is X * Z`, and `X is Y - Z` as
`Y is X + Z` (lines 353-361). -/
def dBin (f : Fn) (X Y Z : Arg) : Out :=
  match f with
  | .mul => dMul rnd X Y Z
  | .add => dAdd rnd X Y Z
  | .div => dMul rnd Y X Z
  | .sub => dAdd rnd Y X Z
  | .min =>
    match Y, Z with
    | .val v, .val w =>
      match pylt w v with
      | some b => u X (.val (if b then w else v))
      | none => .typeError
    | _, _ => fall f
  | .max =>
    match Y, Z with
    | .val v, .val w =>
      match pylt v w with
      | some b => u X (.val (if b then w else v))
      | none => .typeError
    | _, _ => fall f
  | .abs | .str | .int | .not | .range | .user => fall f
  | f =>
    match Y, Z with
    | .val v, .val w =>
      match cmpV f v w with
      | some b => u X (.val (.bool b))
      | none => .typeError
    | _, _ => fall f

/-- Arity three (builtin.py:403-413). -/
def dTri (f : Fn) (V X A B : Arg) : Out :=
  match f, V, A, B with
  | .range, .val (.bool true), .val a, .val b =>
    match int? a, int? b with
    | some a, some b =>
      .ans (((List.range (b - a).toNat).map fun (i : Nat) =>
        (unify [] X (.val (.int (a + i)))).toList).flatten)
    | _, _ => .instFault
  | f, _, _, _ => fall f

/-- A builtin query: `v = k` or `v is k`. -/
inductive Qry
  | unif (v k : Arg)
  | is (v : Arg) (k : Expr)

/-- `Builtins._dispatch` (builtin.py:176-424). -/
def dispatch : Qry → Out
  | .unif v k => u v k
  | .is _ (.lit _) => .instFault
  | .is v (.un f y) => dUn f v y
  | .is v (.bin f y z) => dBin rnd f v y z
  | .is v (.tri f x a b) => dTri f v x a b

/-- `Builtins.is_ready` (builtin.py:121-132): run the query to the end and see whether it raised
`InstFault`.  `none`: no result, because another exception escapes or the run does not end. -/
def isReady (q : Qry) : Option Bool :=
  match q with
  | .unif _ _ => some true
  | q =>
    match dispatch rnd q with
    | .ans _ => some true
    | .instFault => some false
    | .enum _ | .typeError | .zeroDiv | .notBuiltin => none

end Builtin
end Verif
