/-
Rules, body matching and equality: `/repo/dyna/term.py` `Product.covers`/`_covers` (218-262) and
`_match_comm` (272-284), `Subst.is_non_specializing` (472-480), `/repo/dyna/rule.py` `term_signature`
(13-15), `Rule` (22-37), `signature`/`_hash_cache` (60-71), `same` (73-87), and
`/repo/dyna/program.py` `__eq__` (543-550), `_symbolic_equal` (613-620), `_bucket_equal` (622-636),
`_check_bucket` (638-652), `align` (704-734).

All terms are without bound variables, so `==` is structural.  Generators are modelled by the list of
what they yield.  An outer `none` means that fuel ran out (or, in `_covers`, an `IndexError`).
-/
import Verif.TermSets
import Mathlib.Data.Multiset.AddSub

set_option linter.unusedSectionVars false
set_option linter.unusedSimpArgs false

namespace Verif
open Tm

/-- `for a in l: yield from g(a)` -/
def collect {α β : Type} (g : α → Option (List β)) : List α → Option (List β)
  | [] => some []
  | a :: l => match g a with
    | none => none
    | some x => match collect g l with
      | none => none
      | some y => some (x ++ y)

namespace Product

/-- one result `(S, A, R)` of `_covers`; the dict `A` by its items in insertion order -/
structure Res where
  S : Heap
  A : List (Nat × Nat)
  R : List Nat

/-- `self._covers(y, i, js, s)` (term.py:232-262).  The cursor is the list `xs` of remaining subgoals
together with `i`; `js` is kept as an ascending list (so line 243's `sorted(js)` is `js` itself) and
`ord js` is the order in which Python happens to iterate over that set (259). -/
def coversF (f : Nat) (ord : List Nat → List Nat) (ys : List Tm) :
    List Tm → Nat → List Nat → Option Heap → Option (List Res)
  | _, _, _, none => some []                                                   -- 240
  | [], _, js, some s => some [⟨s, [], js⟩]                                    -- 242-244
  | x :: xs, i, js, some s =>
    if (x :: xs).length > js.length then some [] else                          -- 246
    collect (fun j => match ys[j]? with                                        -- 260-262
      | none => none
      | some y => match Subst.coverF f s x y with
        | none => none
        | some s' => (coversF f ord ys xs (i + 1) (js.erase j) s').map
            (List.map fun r => ⟨r.S, r.A ++ [(j, i)], r.R⟩)) (ord js)

/-- `xs.covers(ys)` (term.py:218-230) -/
def covers (f : Nat) (ord : List Nat → List Nat) (xs ys : List Tm) : Option (List Res) :=
  coversF f ord ys xs 0 (List.range ys.length) (some fun _ => none)

/-- `self._match_comm(ys, i, js, s)` (term.py:272-284) -/
def matchF (f : Nat) (ys : List Tm) : List Tm → List Nat → Option Heap → Option (List Heap)
  | _, _, none => some []                                                      -- 278
  | [], _, some s => some [s]                                                  -- 279-281
  | x :: xs, js, some s =>
    if (x :: xs).length ≠ js.length then some [] else                          -- 282
    collect (fun j => match ys[j]? with                                        -- 283-284
      | none => none
      | some y => match Subst.coverF f s x y with
        | none => none
        | some s' => matchF f ys xs (js.erase j) s') js

end Product

/-- `Rule` (rule.py:34-37): `fargs = (head, *body)`. -/
structure Rule where
  head : Tm
  body : List Tm
deriving DecidableEq

namespace Rule

/-- `term_vars(self)`; a `Rule` is a `Term` whose `fargs` are the head and the subgoals -/
def tm (r : Rule) : Tm := .app (r.head :: r.body)

/-- `fresh(other)` (term.py:597-599, `Term.fresh` 325-328): all of `fargs` with one memo -/
def fresh (fv : Nat → Nat) (k : Nat) (r : Rule) : Rule :=
  let h := ren (fun i => fv (k + i)) r.head []
  let b := renL (fun i => fv (k + i)) r.body h.2
  ⟨h.1, b.1⟩

/-- `term_signature(x)` (rule.py:13-15); constants (and bare variables) are wrapped -/
def termSig (cv : Nat → Nat) : Tm → Tm
  | .app as => canonP cv (.app as)
  | x => .app [.con (.str "$const"), x]

/-- `signature` (rule.py:60-63).  A `FrozenBag` (util.py:104-105) is determined by the multiset of its
elements. -/
def signature (cv : Nat → Nat) (r : Rule) : Tm × Multiset Tm :=
  (termSig cv r.head, ↑(r.body.map (termSig cv)))

/-- `isinstance(v, Var)` -/
def isVar : Option Tm → Bool
  | some (.var _) => true
  | _ => false

/-- `s.is_non_specializing()` (term.py:472-480) for a dict whose keys are among `ks` -/
def nonSpec (ks : Finset Nat) (s : Heap) : Bool :=
  let keys := ks.filter (fun n => s n ≠ none)
  let values := keys.image s
  decide (∀ v ∈ values, isVar v) &&
  decide (keys.card = values.card)

/-- `any(...)` over the matches (rule.py:80-87) -/
def anyMatch (f : Nat) (r o : Rule) : List Heap → Option Bool
  | [] => some false
  | s :: ss =>
    if nonSpec (vars r.tm) s then
      match Subst.callF s f r.head with
      | none => none
      | some h => if h = o.head then some true else anyMatch f r o ss
    else anyMatch f r o ss

/-- `self.same(other)` (rule.py:73-87).  `hash` is Python's hash of the signature; `is` tells whether
the two are the same object. -/
def same (cv fv : Nat → Nat) (hash : Tm × Multiset Tm → Nat) (f k : Nat) (is : Bool) (r o : Rule) : Option Bool :=
  if is then some true else                                                    -- 75
  if hash (signature cv r) ≠ hash (signature cv o) then some false else        -- 76
  let o := if Disjoint (vars r.tm) (vars o.tm) then o else o.fresh fv k        -- 78
  match Subst.coverF f (fun _ => none) r.head o.head with                      -- 79
  | none => none
  | some s => match Product.matchF f o.body r.body (List.range o.body.length) s with
    | none => none
    | some ss => anyMatch f r o ss

end Rule

/-! ### Programs -/

/-- Rules as seen by program equality: `same`, the rule signature, and Python's hashes of the rule and
program signatures. -/
structure RuleOps (R S : Type) where
  same : R → R → Bool
  sig : R → S
  hash : S → Nat
  phash : Multiset S → Nat

namespace RuleOps
variable {R S : Type} [DecidableEq R] [DecidableEq S] (o : RuleOps R S)

/-- `r._hash_cache` (rule.py:69-71) -/
def rhash (r : R) : Nat := o.hash (o.sig r)

/-- the inner loop of `_check_bucket` (647-651): the first `s` in `Sb` with `r.same(s)` -/
def firstSame (r : R) (Sb : List R) : Option R := Sb.find? (o.same r)

/-- `_check_bucket(Rb, Sb)` (638-652); `Sb.remove(s)` removes the first element `==` to `s`. -/
def checkBucket : List R → List R → Bool
  | [], _ => true
  | r :: Rb, Sb => match o.firstSame r Sb with
    | none => false
    | some s => checkBucket Rb (Sb.erase s)

/-- the bucket of hash value `b` in the defaultdict of 627-633 -/
def bucket (p : List R) (b : Nat) : List R := p.filter fun r => o.rhash r = b

/-- `_bucket_equal` (622-636) -/
def bucketEqual (p q : List R) : Bool :=
  (decide ((p.map o.rhash).toFinset = (q.map o.rhash).toFinset)) &&
    (p.map o.rhash).all fun b => o.checkBucket (o.bucket p b) (o.bucket q b)

/-- `signature` of a program (147-154) -/
def psig (p : List R) : Multiset S := ↑(p.map o.sig)

/-- `p == q` (543-550) -/
def progEq (is : Bool) (p q : List R) : Bool :=
  if is then true else
  if p.length ≠ q.length then false else
  if o.phash (o.psig p) ≠ o.phash (o.psig q) then false else
  if o.psig p ≠ o.psig q then false else
  o.bucketEqual p q

/-- `_symbolic_equal(rules_a, rules_b)` (613-620) -/
def symbolicEqual (p q : List R) : Bool :=
  if p.length ≠ q.length then false else o.bucketEqual p q

/-- state of the loop of `align` (714-730): the buckets of unmatched indices, the set of unmatched
indices, and the list built so far -/
structure AS where
  Sb : Nat → List Nat
  un : List Nat
  out : List (Option Nat × Option Nat)

/-- one round of the loop 720-730 for `i` with rule `r`; `ord` is the iteration order of the set -/
def alignStep (ord : List Nat → List Nat) (q : List R) (a : AS) (ri : R × Nat) : AS :=
  let b := o.rhash ri.1
  match (ord (a.Sb b)).find? (fun j => match q[j]? with | some s => o.same ri.1 s | none => false) with
  | some j => ⟨fun b' => if b' = b then (a.Sb b).erase j else a.Sb b', a.un.erase j, a.out ++ [(some ri.2, some j)]⟩
  | none => { a with out := a.out ++ [(some ri.2, none)] }

/-- `p.align(q)` (704-735) -/
def align (ord : List Nat → List Nat) (p q : List R) : List (Option Nat × Option Nat) :=
  let a := p.zipIdx.foldl (o.alignStep ord q)
    ⟨fun b => (List.range q.length).filter (fun j => (q[j]?.map o.rhash) = some b), List.range q.length, []⟩
  a.out ++ (ord a.un).map fun j => (none, some j)

end RuleOps
end Verif
