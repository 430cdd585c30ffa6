/-
The unfold transformation: `/repo/dyna/transform/unfold.py` `Unfold.__init__` (53-76), together with
`Program.lookup` (`/repo/dyna/program.py` 1277-1375), `is_input` (514-516) and `safe_inline` (522-527), and
`FreshCache` (`/repo/dyna/term.py` 878-901).

`inf` stands for `Semiring.multiple(inf)`.  Fresh variables are numbered from the allocation mark on, which is
part of the state.  A pooled copy of a rule (`FreshCache`) is as good as a new one, because its variables are
only bound while it is in use; it is modelled as a new copy.
Rules whose head is a bare variable are not modelled (see C18 for what the index does with them), nor are
the builtins `is`, `$not_matches` and `$lift` (signal `unsupported`), nor `has_builtins=False`.
-/
import Verif.Sem
import Verif.ProgIndex
import Verif.Solver

set_option linter.unusedSectionVars false
set_option linter.unusedSimpArgs false

namespace Verif
open Tm Heap
open Solver (noHeap forEach)

namespace Unfold
variable {W : Type}

/-- `AssertionError` -/
abbrev assertion : Sig := .exc 8
abbrev unsupported : Sig := .exc 9

/-- a `Program`: its rules and the heads of its input declarations (program.py:101-128) -/
structure Prog (W : Type) where
  rules : List (WRule W)
  inputs : List Tm := []

/-- `fresh(r)` (term.py:597-599), variables numbered from `k`; also the new allocation mark -/
def freshR (k : Nat) (r : WRule W) : WRule W × Nat :=
  let h := ren (k + ·) r.head []
  let b := WRule.renB (k + ·) r.body h.2
  (⟨h.1, b.1⟩, k + b.2.length)

/-- follow the bindings in one body element -/
def derefLit (h : Heap) (f : Nat) : Lit W → Option (Lit W)
  | .val c => some (.val c)
  | .sub t => (derefF h f t).map .sub

/-- what a rule object looks like under the current bindings (term.py:866-875) -/
def derefR (h : Heap) (f : Nat) (r : WRule W) : Option (WRule W) :=
  match derefF h f r.head, allSome (r.body.map (derefLit h f)) with
  | some hd, some b => some ⟨hd, b⟩
  | _, _ => none

/-- `is_input(x)` (program.py:514-516) -/
def isInput (f : Nat) (q : Tm) (h : Heap) : List Tm → Option Bool
  | [] => some false
  | t :: ts => match unifiesF f t q h with
    | none => none
    | some true => some true
    | some false => isInput f q h ts

/-- the state of the loop: the new rules, each with the number of the definition it came from
(`new2def`), and the allocation mark -/
structure US (W : Type) where
  out : List (WRule W × Option Nat)
  k : Nat
deriving DecidableEq

section
variable {S : Type}

/-- one candidate rule in `lookup` (program.py:1367-1371) -/
def tryRule (f : Nat) (q : Tm) (body : WRule W → Option Nat → Body (US W)) (ir : WRule W × Nat) : Body (US W) := fun h s =>
  let r := freshR s.k ir.1
  unifyF f r.1.head q (body r.1 (some ir.2)) h { s with k := r.2 }

/-- the rules offered for a functor: `f2r` (program.py:1379-1392), in order, with their numbers -/
def offers (rules : List (WRule W)) (c : Const) : List (WRule W × Nat) :=
  rules.zipIdx.filter fun ir => hfn ir.1.head == some c

/-- comparison operators (builtin.py:55-64) with what they decide on ground terms -/
abbrev Ops := Const → Option (Tm → Tm → Bool)

/-- the builtins that are not modelled -/
def unmodelled (c : Const) : Bool := c == .str "is" || c == .str "$not_matches" || c == .str "$lift"

/-- `for s in defs.lookup(q): body(s)` (program.py:1277-1375) for a query that is neither a constant nor an
input; `body` is given the rule and its number (`r.i`). -/
def lookup [One W] (f : Nat) (ops : Ops) (d : List (WRule W)) (q : Tm) (body : WRule W → Option Nat → Body (US W)) :
    Body (US W) := fun h s =>
  match q with
  | .var _ => forEach d.zipIdx (tryRule f q body) h s                                   -- 1290-1295
  | .app (.con c :: as) =>
    if unmodelled c then some (h, s, unsupported) else
    match ops c, as with
    | some o, [x, y] =>                                                                 -- 1317-1331
      match groundF h f x, groundF h f y, derefF h f x, derefF h f y with
      | some true, some true, some x', some y' =>
        if o x' y' then body ⟨q, [.val 1]⟩ none h s else some (h, s, .done)
      | some _, some _, some _, some _ =>
        match body ⟨q, [.sub q]⟩ none h s with                                          -- delayed; no `return`
        | none => none
        | some (h, s, .done) => forEach (offers d c) (tryRule f q body) h s
        | some r => some r
      | _, _, _, _ => none
    | _, _ =>
      match c, as with
      | .str "=", [x, y] => unifyF f x y (body ⟨q, [.val 1]⟩ none) h s                  -- 1333-1339
      | c, _ => forEach (offers d c) (tryRule f q body) h s                             -- 1368-1375
  | _ => some (h, s, unsupported)

end

section
variable [One W] [DecidableEq W]

/-- the body of the loop (unfold.py:59-72): `t` under the current bindings, with an infinite multiplicity if
a variable was lost, freshened -/
def resolvent (f : Nat) (inf : W) (head : Tm) (L R : List (Lit W)) (s : WRule W) (i : Option Nat) : Body (US W) := fun h st =>
  match derefR h f ⟨head, L ++ s.body ++ R⟩, derefR h f s with
  | some t, some s' =>
    let t := if Sem.rvars s' ⊆ Sem.rvars t then t                                       -- 64
      else if inf ≠ 1 then ⟨t.head, t.body ++ [.val inf]⟩ else t                        -- 65-67
    let t := freshR st.k t                                                              -- 69
    some (h, ⟨st.out ++ [(t.1, i)], t.2⟩, .done)
  | _, _ => none

/-- `Unfold(program, i, j, defs)` (unfold.py:8-76): the rules of the new program, `new2def` for the added
ones, and the allocation mark; `k` is the allocation mark on entry.  An outer `none` means that fuel ran
out, an index error is reported as an assertion error. -/
def unfold (f : Nat) (ops : Ops) (inf : W) (k : Nat) (p d : Prog W) (i j : Nat) : Option (List (WRule W) × US W × Sig) :=
  match p.rules[i]? with
  | none => some ([], ⟨[], k⟩, assertion)
  | some r =>
    match r.body[j]? with
    | none => some ([], ⟨[], k⟩, assertion)
    | some (.val _) => some ([], ⟨[], k⟩, assertion)                                    -- safe_inline: constant
    | some (.sub q) =>
      match isInput f q noHeap d.inputs with
      | none => none
      | some true => some ([], ⟨[], k⟩, assertion)                                      -- safe_inline: input
      | some false =>
        match lookup f ops d.rules q (resolvent f inf r.head (r.body.take j) (r.body.drop (j + 1))) noHeap ⟨[], k⟩ with
        | none => none
        | some (_, s, g) => some (p.rules.erase r ++ s.out.map Prod.fst, s, g)

end
end Unfold
end Verif
