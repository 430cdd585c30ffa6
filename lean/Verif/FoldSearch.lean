/-
The search for folds: `/repo/dyna/program.py` `fold_proposals` (1699-1730), `partial_megafolds` (1641-1658) and
`reversible_megafolds` (1660-1672), `/repo/dyna/rule.py` `_body_fns` (65-67) and `FoldedRule` (180-199),
`/repo/dyna/term.py` `NoDupsSet.add` (917-930), `/repo/dyna/transform/fold.py` `prune_r_S` (194-221),
`memoize1` (225-249) and `fold_r_S` (252-265), `/repo/dyna/search/search.py` `_drive_reversible_folds` (222-242).

`Fold` and its checks are in `Verif.Fold`, `Rule.folds_by` is in `Verif.Measure`.  A `Counter` is modelled by the list of
what it counts.  The iteration order of a set of numbers is the parameter `ord`, that of a set of rules the
parameter `shuf`.  All unfoldings of one search start from the same allocation mark.
Not modelled: the bookkeeping of a `FoldedRule` (its position `j` is 0), the counters `k` and `n` of `memoize1`, and what
`_update` does with the states it is given (C73).
-/
import Verif.Measure

set_option linter.unusedSectionVars false
set_option linter.unusedSimpArgs false

namespace Verif
open Tm Heap

namespace FoldSearch
open Unfold (Prog Ops freshR)
open Fold (fold safeByRev partiallySafe foldsBy)
open Measure (Folded litTm ruleFolds)
variable {W : Type}

/-! ### Proposals -/

/-- `fn(x)` (rule.py:7) -/
def key : Tm → Tm
  | .app (g :: _) => g
  | t => t

/-- `r._body_fns` (rule.py:65-67) -/
def bodyFns (code : W → Const) (r : WRule W) : List Tm := r.body.map fun l => key (litTm code l)

/-- `all(d_sig[k] <= p_sig[k] for k in d_sig)` (program.py:1713); also line 217 of fold.py -/
def within {α : Type} [DecidableEq α] (d p : List α) : Bool := d.all fun k => decide (d.count k ≤ p.count k)

/-- the rule that a `FoldedRule` is (rule.py:182-189), with an empty `left` (152) -/
def foldedRule (p : WRule W) (t : Folded W) : WRule W := ⟨p.head, .sub t.subgoal :: t.rest⟩

/-- `len(u.body) == 1 and u.head == u.body[0]` (program.py:1717) -/
def trivialFold (u : WRule W) : Bool := match u.body with
  | [.sub t] => decide (u.head = t)
  | _ => false

section
variable [DecidableEq W]

/-- the body of the double loop of `fold_proposals` (1709-1723): what is added for rule `p` of the program and
definition `d` -/
def propose (f : Nat) (ord : List Nat → List Nat) (shuf : List (WRule W) → List (WRule W)) (code : W → Const) (skipTrivial skipZero : Bool)
    (d p : WRule W) : Option (List (WRule W)) :=
  if skipZero && (p.body.isEmpty || d.body.isEmpty) then some [] else                   -- 1710-1711
  if !within (bodyFns code d) (bodyFns code p) then some [] else                        -- 1714
  (ruleFolds f ord code p d).map fun us =>
    (shuf (us.map (foldedRule p))).filter fun u => !(skipTrivial && trivialFold u)

variable {S' : Type} [DecidableEq S']

/-- `proposals.add(r)` (term.py:917-930) -/
def addNew (o : RuleOps (WRule W) S') (s : List (WRule W) × Nat) (r : WRule W) : List (WRule W) × Nat :=
  let r' := freshR s.2 r
  if s.1.any (o.same r'.1) then (s.1, r'.2) else (s.1 ++ [r'.1], r'.2)

/-- `p.fold_proposals(defs, skip_trivial, skip_zero_width)` (program.py:1699-1730), with the new allocation mark -/
def proposals (f : Nat) (o : RuleOps (WRule W) S') (ord : List Nat → List Nat) (shuf : List (WRule W) → List (WRule W)) (code : W → Const)
    (skipTrivial skipZero : Bool) (p defs : Prog W) (k : Nat) : Option (List (WRule W) × Nat) :=
  (collect (fun d => collect (propose f ord shuf code skipTrivial skipZero d) p.rules) defs.rules).map fun us =>
    us.foldl (addNew o) ([], k)

end

/-! ### Candidates -/

/-- `term_signature(x)` (fold.py:188-189) -/
def sig : Tm → Option (Tm × Nat)
  | .app (g :: as) => some (g, as.length)
  | _ => none

def litSig : Lit W → Option (Tm × Nat)
  | .val _ => none
  | .sub t => sig t

/-- does `prune_r_S` (fold.py:206-219) keep a rule `s`?  `B` is the signature of `r.body[r.j]`; taking one
off its count (210-211) is erasing one occurrence. -/
def keeps (r : WRule W) (B : Option (Tm × Nat)) (s : WRule W) : Bool :=
  decide (sig s.head = sig r.head) && within ((r.body.map litSig).erase B) (s.body.map litSig)

/-- `prune_r_S(Q, r)` (fold.py:194-221) for `r.j = j`; `none` is an `IndexError` -/
def prune (Q : Prog W) (r : WRule W) (j : Nat) : Option (Finset Nat) :=
  match r.body[j]? with
  | none => none
  | some b => some ((Finset.range Q.rules.length).filter fun i => ∃ s ∈ Q.rules[i]?, keeps r (litSig b) s = true)

/-! ### Subsets -/

/-- the table `memos` of `memoize1`, and a log of the sets for which a `Fold` was built -/
structure FS where
  memo : List (Finset Nat × Option (Finset Nat))
  tried : List (Finset Nat)

/-- `for i in S: yield from g(i)`, up to the first thing yielded -/
def firstOf {σ β : Type} (g : Nat → σ → Option (Option β × σ)) : List Nat → σ → Option (Option β × σ)
  | [], s => some (none, s)
  | i :: l, s => match g i s with
    | none => none
    | some (some b, s) => some (some b, s)
    | some (none, s) => firstOf g l s

/-- the memoized `f(S)` inside `fold_r_S` (fold.py:255-261 with 234-246): the set of the first fold yielded, if any.
`check S` is `new.safe_by_rev`.  The first argument bounds the depth of the recursion. -/
def memoF (check : Finset Nat → Option Bool) (ord : Finset Nat → List Nat) : Nat → Finset Nat → FS → Option (Option (Finset Nat) × FS)
  | 0, _, _ => none
  | n + 1, S, st =>
    match st.memo.lookup S with
    | some v => some (v, st)                                                            -- 244-245
    | none =>
      match check S with
      | none => none
      | some true => some (some S, ⟨(S, some S) :: st.memo, st.tried ++ [S]⟩)           -- 260
      | some false =>
        match firstOf (fun i => memoF check ord n (S.erase i)) (ord S) ⟨st.memo, st.tried ++ [S]⟩ with   -- 261
        | none => none
        | some (v, st) => some (v, ⟨(S, v) :: st.memo, st.tried⟩)

/-- `fold_r_S(parent, defs, r, Qs)` (252-265) -/
def foldRS (check : Finset Nat → Option Bool) (ord : Finset Nat → List Nat) (Qs : Finset Nat) : Option (Option (Finset Nat) × List (Finset Nat)) :=
  (memoF check ord (Qs.card + 1) Qs ⟨[], []⟩).map fun a => (a.1, a.2.tried)

/-- the generator `f(S)` of `_drive_reversible_folds` (search.py:233-236) up to the first fold that passes the check (239-242), with the
same log -/
def plainF (check : Finset Nat → Option Bool) (ord : Finset Nat → List Nat) : Nat → Finset Nat → List (Finset Nat) →
    Option (Option (Finset Nat) × List (Finset Nat))
  | 0, _, _ => none
  | n + 1, S, tried =>
    match check S with
    | none => none
    | some true => some (some S, tried ++ [S])
    | some false => firstOf (fun i => plainF check ord n (S.erase i)) (ord S) (tried ++ [S])

/-! ### Folds -/

section
variable [One W] [DecidableEq W] {S' : Type} [DecidableEq S']

/-- what `reversible_megafolds` yields for one proposal `r` (program.py:1671-1672): at most one fold -/
def reversibleOf (f : Nat) (o : RuleOps (WRule W) S') (ord : Finset Nat → List Nat) (ops : Ops) (inf : W) (k : Nat) (p : Prog W) (r : WRule W) :
    Option (List (Prog W)) :=
  match prune p r 0 with
  | none => none
  | some Qs => (foldRS (fun S => safeByRev f o ops inf k p r S 0) ord Qs).map fun a => (a.1.map (fold p r)).toList

/-- what `_drive_reversible_folds` passes to `_update` for one proposal (search.py:231-242) -/
def driveOf (f : Nat) (o : RuleOps (WRule W) S') (ord : Finset Nat → List Nat) (ops : Ops) (inf : W) (k : Nat) (p : Prog W) (r : WRule W) :
    Option (List (Prog W)) :=
  match prune p r 0 with
  | none => none
  | some Qs => (plainF (fun S => safeByRev f o ops inf k p r S 0) ord (Qs.card + 1) Qs []).map fun a => (a.1.map (fold p r)).toList

/-- `p.reversible_megafolds(defs, Rs)` (1660-1672) -/
def reversibleMegafolds (f : Nat) (o : RuleOps (WRule W) S') (ord : Finset Nat → List Nat) (ops : Ops) (inf : W) (k : Nat) (p : Prog W)
    (Rs : List (WRule W)) : Option (List (Prog W)) := collect (reversibleOf f o ord ops inf k p) Rs

/-- what `partial_megafolds` yields for one proposal `r` (1655-1658) -/
def partialOf (f : Nat) (o : RuleOps (WRule W) S') (ord : List Nat → List Nat) (ops : Ops) (inf : W) (k : Nat) (p defs : Prog W) (r : WRule W) :
    Option (List (Prog W)) :=
  match foldsBy f o ord ops inf k p defs r 0 with
  | none => none
  | some none => some []
  | some (some (S, new)) => match partiallySafe f o ops inf k p defs r S 0 with
    | none => none
    | some b => some (if b then [new] else [])

/-- `p.partial_megafolds(defs, Rs)` (1641-1658) -/
def partialMegafolds (f : Nat) (o : RuleOps (WRule W) S') (ord : List Nat → List Nat) (ops : Ops) (inf : W) (k : Nat) (p defs : Prog W)
    (Rs : List (WRule W)) : Option (List (Prog W)) := collect (partialOf f o ord ops inf k p defs) Rs

end
end FoldSearch
end Verif
