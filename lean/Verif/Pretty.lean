/-
Printing and parsing of operator terms: `PrettyPrinter.pp_term`, `pp_infix`, `pp_list`
(`/repo/dyna/pretty.py` lines 15-45, 173-221, 247-387) and the grammar built by `add_ops`
(`/repo/dyna/syntax.py` lines 222-369, with the transformer, lines 36-88).

Simplified: text is a list of tokens (white space, quoting of functors and the lexer are not modelled, so
neither is the reading of `-3` as a number); constants, variables and functors are words; nullary and
postfix operators, list patterns `[X|Y]` and back-quotes are not modelled.
-/
import Mathlib.Data.List.Basic
import Mathlib.Data.List.Sort
import Mathlib.Tactic.Common

set_option linter.unusedSectionVars false
set_option linter.unusedSimpArgs false

namespace Verif
namespace Pretty

/-- Operator associativity (syntax.py:268). -/
inductive Assoc | L | R | N
deriving DecidableEq

/-- An entry of the operator table `ops` (syntax.py:392-466): `BinOp`, prefix `UnaryOp`,
`ChainedCompare`.  Priorities are given in hundredths. -/
inductive Op
  | bin (s : String) (prio : Nat) (assoc : Assoc)
  | pre (s : String) (prio : Nat)
  | cmp (prio : Nat)
deriving DecidableEq

def Op.prio : Op → Nat
  | .bin _ p _ => p
  | .pre _ p => p
  | .cmp p => p

/-- The comparison tokens (syntax.py:207-210, 329). -/
def cmps : List String := ["<", "<=", ">", ">="]

/-- Binary operator tokens of an entry. -/
def Op.syms : Op → List String
  | .bin s _ _ => [s]
  | .pre _ _ => []
  | .cmp _ => cmps

/-- Operator terms: a word (constant, variable or functor of arity zero), a term of arity two with an
operator as its functor, a term of arity one with an operator as its functor, any other term, a list. -/
inductive E
  | atom (w : String)
  | bin (s : String) (a b : E)
  | un (s : String) (a : E)
  | call (w : String) (es : List E)
  | list (es : List E)

inductive Tok
  | word (w : String)
  | op (s : String)
  | lp | rp | lb | rb
deriving DecidableEq

/-! ### The grammar -/

/-- `add_ops` sorts the operators by decreasing priority, keeping the order of equal ones
(syntax.py:342); the operator at index `i` gets the nonterminal `p{i+1}`. -/
def table (ops : List Op) : List Op := ops.insertionSort fun a b => b.prio ≤ a.prio

/-- `DynaTransformer.binop` (syntax.py:64-69): `for` becomes a comma with its arguments swapped. -/
def mk (s : String) (a b : E) : E := if s = "for" then .bin "," b a else .bin s a b

/-- `DynaTransformer.chained_compare` (syntax.py:47-62), after the first operand. -/
def conjGo (c : E) (a : E) : List (String × E) → E
  | [] => c
  | (s, b) :: l => conjGo (.bin "," c (.bin s a b)) b l
def conj (e : E) : List (String × E) → E
  | [] => e
  | (s, a) :: l => conjGo (.bin s e a) a l

/-- Levels of the operands of a binary operator at index `i` (`BinOp.render`, syntax.py:292-296). -/
def lft : Assoc → Nat → Nat
  | .L, i => i + 1
  | _, i => i
def rgt : Assoc → Nat → Nat
  | .R, i => i + 1
  | _, i => i

mutual
/-- `D i ts e`: the tokens `ts` derive from the nonterminal `p{i}` and stand for the term `e`
(syntax.py:243-260, and the `render` methods, lines 292-329).
`top = T.length` is `expr1`; `A` and `C` are the levels `expr2` (arguments) and `expr3` (list items). -/
inductive D (T : List Op) (A C : Nat) : Nat → List Tok → E → Prop
  | word (w) : D T A C 0 [.word w] (.atom w)
  | paren {ts e} : D T A C T.length ts e → D T A C 0 (.lp :: (ts ++ [.rp])) e
  | call0 (w) : D T A C 0 [.word w, .lp, .rp] (.atom w)
  | call {w ts es} : Args T A C A ts es → D T A C 0 (.word w :: .lp :: (ts ++ [.rp])) (.call w es)
  | callc {w ts es} : Args T A C A ts es →
      D T A C 0 (.word w :: .lp :: (ts ++ [.op ",", .rp])) (.call w es)
  | list0 : D T A C 0 [.lb, .rb] (.list [])
  | list {ts es} : Args T A C C ts es → D T A C 0 (.lb :: (ts ++ [.rb])) (.list es)
  | lift {i op ts e} : T[i]? = some op → D T A C i ts e → D T A C (i + 1) ts e
  | bin {i s p a ts ts' e e'} : T[i]? = some (.bin s p a) → D T A C (lft a i) ts e →
      D T A C (rgt a i) ts' e' → D T A C (i + 1) (ts ++ .op s :: ts') (mk s e e')
  | pre {i s p ts e} : T[i]? = some (.pre s p) → D T A C (i + 1) ts e →
      D T A C (i + 1) (.op s :: ts) (.un s e)
  | cmp {i p ts e rs l} : T[i]? = some (.cmp p) → D T A C i ts e → Rest T A C i rs l →
      D T A C (i + 1) (ts ++ rs) (conj e l)
/-- Items separated by commas. -/
inductive Args (T : List Op) (A C : Nat) : Nat → List Tok → List E → Prop
  | one {i ts e} : D T A C i ts e → Args T A C i ts [e]
  | cons {i ts e ts' es} : D T A C i ts e → Args T A C i ts' es →
      Args T A C i (ts ++ .op "," :: ts') (e :: es)
/-- The tail of a chained comparison. -/
inductive Rest (T : List Op) (A C : Nat) : Nat → List Tok → List (String × E) → Prop
  | nil {i} : Rest T A C i [] []
  | cons {i s ts e rs l} : s ∈ cmps → D T A C i ts e → Rest T A C i rs l →
      Rest T A C i (.op s :: (ts ++ rs)) ((s, e) :: l)
end

/-! ### The printer -/

/-- `binops.get(f)` (pretty.py:15-24): the priority and associativity of a binary operator; a
`ChainedCompare` has no associativity. -/
def binop (T : List Op) (s : String) : Option (Nat × Option Assoc) :=
  T.findSome? fun
    | .bin s' p a => if s' = s then some (p, some a) else none
    | .cmp p => if s ∈ cmps then some (p, none) else none
    | .pre _ _ => none

/-- `unaryops` (pretty.py:26). -/
def isPre (T : List Op) (s : String) : Bool := T.any fun
  | .pre s' _ => s' == s
  | _ => false

/-- The functor that `binop` looks at (pretty.py:33-37): of a term of any arity. -/
def E.fn : E → String
  | .atom w => w
  | .bin s _ _ => s
  | .un s _ => s
  | .call w _ => w
  | .list [] => "$nil"
  | .list (_ :: _) => "$cons"

/-- Parenthesize an operand or not (pretty.py:341-355), `bare` being the associativity that needs no
parentheses on this side.  `none`: the attribute `assoc` of a `ChainedCompare` is missing. -/
def wrap (T : List Op) (s : String) (bare : Assoc) (a : E) (ts : List Tok) : Option (List Tok) :=
  match binop T a.fn, binop T s with
  | some (pa, aa), some (px, _) =>
    if pa ≤ px then
      if pa = px then
        match aa with
        | none => none                               -- AttributeError
        | some c => some (if c = bare then ts else .lp :: (ts ++ [.rp]))
      else some (.lp :: (ts ++ [.rp]))
    else some ts
  | _, _ => some ts

/-- `','.join(…)`. -/
def joinC : List (List Tok) → List Tok
  | [] => []
  | [t] => t
  | t :: ts => t ++ .op "," :: joinC ts

mutual
/-- `PrettyPrinter.pp_term` (pretty.py:247-297) with `pp_infix` (lines 299-357), `pp_term_default`
(lines 359-362) and `pp_list` (lines 376-387).  `none`: an exception, or an operator that is not in the
table. -/
def pr (T : List Op) : E → Option (List Tok)
  | .atom w => some [.word w]
  | .bin s a b =>
    match binop T s, pr T a, pr T b with
    | some _, some ta, some tb =>
      match wrap T s .L a ta, wrap T s .R b tb with
      | some ta, some tb => some (ta ++ .op s :: tb)
      | _, _ => none
    | _, _, _ => none
  | .un s a =>
    if isPre T s then
      match pr T a with
      | some ta =>
        match a with
        | .bin s' _ _ => if (binop T s').isSome then some (.op s :: .lp :: (ta ++ [.rp]))
                         else some (.op s :: ta)
        | _ => some (.op s :: ta)
      | none => none
    else none
  | .call w es => (prs T es).map fun l => .word w :: .lp :: (joinC l ++ [.rp])
  | .list es => (prs T es).map fun l => .lb :: (joinC l ++ [.rb])
def prs (T : List Op) : List E → Option (List (List Tok))
  | [] => some []
  | e :: es =>
    match pr T e, prs T es with
    | some t, some ts => some (t :: ts)
    | _, _ => none
end

/-! ### Rules -/

/-- The body of a rule as one product, from the left (pretty.py:213-215). -/
def prod (b : E) (bs : List E) : E := bs.foldl (fun acc x => .bin "*" acc x) b

/-- The head of a rule: in parentheses when it is an operator term (pretty.py:191-193). -/
def headToks (T : List Op) (h : E) (th : List Tok) : List Tok :=
  match h with
  | .bin s _ _ => if (binop T s).isSome then .lp :: (th ++ [.rp]) else th
  | _ => th

/-- Printing a rule (pretty.py:173-221): the head is put in parentheses when it is an operator term, the
product of the body is not. -/
def prRule (T : List Op) (h : E) (body : List E) : Option (List Tok) :=
  match pr T h with
  | none => none
  | some th =>
    match body with
    | [] => some (headToks T h th)
    | b :: bs => (pr T (prod b bs)).map fun tb => headToks T h th ++ .op "+=" :: tb

/-- `flatten_op` (term.py:85-97): it looks at the functor only, whatever the arity. -/
def flat (op : String) : E → List E
  | .bin s a b => if s = op then flat op a ++ flat op b else [.bin s a b]
  | .un s a => if s = op then flat op a else [.un s a]
  | e => [e]

/-- `DynaTransformer.rule` (syntax.py:82-88): head and body of the rule read from a term. -/
def toRule : E → E × List E
  | .bin s h v => if s = ":-" ∨ s = "+=" then (h, (flat "," v).flatMap (flat "*")) else (.bin s h v, [])
  | e => (e, [])

/-! ### The operator table of the code -/

open Assoc in
/-- The list `ops` (syntax.py:392-466), without the nullary and postfix operators. -/
def ops : List Op := [
  .cmp 500,
  .bin "+=" 0 N, .bin ":-" 0 N,
  .bin "|" 200 R, .bin "," 110 L, .bin "^" 800 R, .bin "/" 750 L, .bin "//" 750 L, .bin "\\" 750 L,
  .bin "*" 700 L, .bin "@" 710 L, .bin "#" 720 L, .bin "+" 600 L, .bin "-" 650 L, .bin ":" 410 L,
  .bin "==" 400 N, .bin "!=" 400 N, .bin "is" 390 R, .bin "<-" 390 R, .bin "<--" 390 R,
  .bin "-->" 390 R, .bin "~>" 390 R, .bin "->" 390 R, .bin "<~" 390 R, .bin "~" 390 R,
  .bin "::" 390 R, .bin "↦" 380 L, .bin "=>" 380 R, .bin "∈" 400 N, .bin "!" 400 L,
  .bin "=/=" 400 N, .bin "&" 300 R, .bin "=" 150 N, .bin "for" 103 R, .bin ";" 0 L,
  .pre "not" 900, .pre "+" 900, .pre "-" 900, .pre "~" 900, .pre "&" 900, .pre "*" 900,
  .pre "!" 910, .pre "?" 900]

/-- Index of an operator in a table. -/
def idx (T : List Op) (s : String) : Option Nat := T.findIdx? fun o => decide (s ∈ o.syms)

/-- The levels `expr2` and `expr3`: just below the comma and the bar (syntax.py:348-350, 363-367). -/
def argLevel (T : List Op) : Nat := (idx T ",").getD 0
def itemLevel (T : List Op) : Nat := (idx T "|").getD 0

end Pretty
end Verif
