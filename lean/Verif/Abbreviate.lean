/-
The type-based abbreviation transformation: class `Abbreviate` of `/repo/dyna/analyze/abbreviate.py`, with
`Program.lookup` (`/repo/dyna/program.py` 1273-1375) on simple types and `is_disjoint` / `find_overlap`
(`/repo/dyna/analyze/types.py` 236-250).

The chart is a list of simple types (already sorted, abbreviate.py:37); `.i` (49) is the position in it.
`rewrites(·)` is a parameter for both values of `ALLOW_FREE_MERGE`; `name i` is the `i`-th generated functor (52).
Sets of constraints are lists without duplicates.
Simplified: `__abbrev` reads the head of a type through its bindings before it is matched with the type of the
chart (the code follows them when the new rule is copied); constants of the program are not handed to
`rewrites(·)`, which drops them; a subgoal that is a variable bound to a constant is not modelled (signal
`unsupported`); the declaration of the type parameters as inputs (104) is not modelled.
-/
import Verif.TypeAn
import Verif.AntiUnify
import Verif.Sem

set_option linter.unusedSectionVars false
set_option linter.unusedSimpArgs false

namespace Verif
namespace Abbreviate
open Tm Heap
open Rewrites (Ty Res)
open Solver (noHeap forEach)
open Unfold (Ops isInput unmodelled unsupported derefR freshR)
open TypeAn (freshT derefT)

/-- `self.types`, its `rewrites` without merging of free variables, the inputs of the program, and the new names -/
structure Cfg where
  types : TypeAn.Cfg
  simpNF : Nat → Ty → Res
  ins : List Tm
  name : Nat → Const

/-- `term_vars(x)` (term.py:795-810) for a term without bound variables: in the order of occurrence -/
def termVars (t : Tm) : List Nat := (ren id t []).2

/-- `freebies(r)` (abbreviate.py:20-26): what `$free` is said of -/
def freebies (cs : List Tm) : List Tm := cs.filterMap fun
  | .app (.con (.str "$free") :: x :: _) => some x
  | _ => none

/-- the variables that an abbreviation keeps (128) -/
def keptVars (t : Ty) : List Nat := (termVars (.app (t.1 :: t.2))).filter fun n => decide (.var n ∉ freebies t.2)

/-- `Term(self._new_names[i], *(term_vars(t_type) - freebies(t_type)))` (127-129) -/
def atom (nm : Const) (t : Ty) : Tm := .app (.con nm :: (keptVars t).map .var)

/-- `Subst().mgu(t_type.head, u)(…)` (127-129): the abbreviation of the term `u` by the type `t`; calling `FAIL`
raises an exception -/
def abbrevF (f : Nat) (nm : Const) (t : Ty) (u : Tm) : Option Tm :=
  match Subst.mguF f noHeap t.1 u with
  | some (some s) => Subst.callF s f (atom nm t)
  | _ => none

section
variable {S : Type}

/-- one candidate in `lookup` (program.py:1288-1291, 1371-1375): the renamed type with its index -/
def tryI (f : Nat) (q : Tm) (body : Option Nat → Ty → Body (S × Nat)) (x : Ty × Nat) : Body (S × Nat) := fun h s =>
  let r := freshT s.2 x.1
  unifyF f r.1.1 q (body (some x.2) r.1) h (s.1, r.2)

/-- `for t in chart.lookup(q): body(t)` (program.py:1273-1375) -/
def lookI (g : TypeAn.Cfg) (f : Nat) (chart : List Ty) (q : Tm) (body : Option Nat → Ty → Body (S × Nat)) : Body (S × Nat) := fun h s =>
  match snapF h f q with                                                                -- 1281
  | none => none
  | some (.var n) => forEach chart.zipIdx (tryI f (.var n) body) h s                    -- 1287-1292
  | some (.app (.con c :: as)) =>
    if unmodelled c then some (h, s, unsupported) else
    match isInput f (.app (.con c :: as)) h g.inputs with                               -- 1305-1311
    | none => none
    | some true => body none (.app (.con c :: as), [.app (.con c :: as)]) h s
    | some false =>
      match g.ops c, as with
      | some o, [x, y] =>                                                               -- 1320-1333
        match groundF h f x, groundF h f y, derefF h f x, derefF h f y with
        | some true, some true, some x', some y' =>
          if o x' y' then body none (.app (.con c :: as), [.con g.one]) h s else some (h, s, .done)
        | some _, some _, some _, some _ =>
          match body none (.app (.con c :: as), [.app (.con c :: as)]) h s with         -- delayed; no `return`
          | none => none
          | some (h, s, .done) => forEach (chart.zipIdx.filter fun x => hfn x.1.1 == some c) (tryI f (.app (.con c :: as)) body) h s
          | some r => some r
        | _, _, _, _ => none
      | _, _ =>
        match c, as with
        | .str "=", [x, y] => unifyF f x y (body none (.app (.con c :: as), [.con g.one])) h s   -- 1335-1341
        | c, as => forEach (chart.zipIdx.filter fun x => hfn x.1.1 == some c) (tryI f (.app (.con c :: as)) body) h s   -- 1368-1375
  | _ => some (h, s, unsupported)

end

section
variable {W : Type}

/-- what `lookup` yields for an element of a body: the constant, or a type with its index -/
inductive Got (W : Type)
  | val (w : W)
  | rule (ix : Option Nat) (t : Ty)

/-- `for t_body in join_f(chart.lookup, *b): body(t_body)` (abbreviate.py:67, term.py:44-56) -/
def joinI (g : TypeAn.Cfg) (f : Nat) (chart : List Ty) {S : Type} : List (Lit W) → (List (Got W) → Body (S × Nat)) → Body (S × Nat)
  | [], body => body []
  | .val w :: b, body => joinI g f chart b fun ts => body (.val w :: ts)
  | .sub q :: b, body => lookI g f chart q fun ix t => joinI g f chart b fun ts => body (.rule ix t :: ts)

/-- `body_constraints` (72) -/
def constraints : List (Got W) → List Tm
  | [] => []
  | .val _ :: ts => constraints ts
  | .rule _ t :: ts => t.2 ++ constraints ts

/-- `self.parent.is_builtin(x)` (builtin.py:85-90) for the operators and `=` -/
def builtin (ops : Ops) : Tm → Bool
  | .app [.con c, _, _] => (ops c).isSome || c == .str "="
  | _ => false

/-- `self.__abbrev(t)` (112-129) for a subgoal -/
def abbrevGot (g : Cfg) (f : Nat) (chart : List Ty) (h : Heap) : Got W → Option (Lit W)
  | .val w => some (.val w)                                                             -- 113
  | .rule ix t => match derefF h f t.1 with
    | none => none
    | some u =>
      if builtin g.types.ops u then some (.sub u) else                                  -- 115
      match ix with
      | none => none                                                                    -- 117: no type
      | some i => match chart[i]? with
        | none => none
        | some ty => (abbrevF f (g.name i) ty u).map .sub

/-- `add_rule` (44-47) -/
def addRule (r : WRule W) : Body (List (WRule W) × Nat) := fun h s =>
  let r := freshR s.2 r
  some (h, (s.1 ++ [r.1], r.2), .done)

/-- `freebies(r) - snap_vars(r.head)` (108) -/
def locals (hd : Tm) (cs : List Tm) : Finset Tm := (freebies cs).toFinset \ (vars hd).image .var

/-- the test of `__dropped_var_correction` (108) -/
def lost (hd hd' : Tm) (cs cs' : List Tm) : Bool := decide (locals hd cs ≠ locals hd' cs')

/-- the subgoals of a body, without the constants -/
def subs (b : List (Lit W)) : List Tm := b.filterMap fun | .sub t => some t | .val _ => none

/-- the body of the loop over the types of the head (79-99); `cl` is `body_closure` -/
def closeHead (g : Cfg) (f : Nat) (chart : List Ty) (inf : W) (r : WRule W) (ts : List (Got W)) (cl : Ty) (ix : Option Nat) (t : Ty) :
    Body (List (WRule W) × Nat) := fun h s =>
  match derefT h f (r.head, t.2 ++ cl.2), derefT h f cl with
  | some R, some cl => match g.simpNF s.2 R with                                        -- 81
    | .oof | .err => none
    | .none => some (h, s, .done)                                                       -- 84
    | .ty hd bd =>
      match ix with
      | none => none
      | some i => match chart[i]? with
        | none => none
        | some ty =>
          match abbrevF f (g.name i) ty hd, allSome (ts.map (abbrevGot g f chart h)) with   -- 91-92
          | some hd', some b =>
            let b := b ++ ((bd.filter fun c => decide (c ∉ cl.2)).dedup.map .sub)       -- 88, 93
            addRule ⟨hd', if lost cl.1 hd' cl.2 (subs b) then b ++ [.val inf] else b⟩ h s   -- 96-98, 106-110
          | _, _ => none
  | _, _ => none

/-- the body of the loop over the types of the body (67-99) -/
def closeBody (g : Cfg) (f : Nat) (chart : List Ty) (inf : W) (r : WRule W) (ts : List (Got W)) : Body (List (WRule W) × Nat) := fun h s =>
  match derefR h f r, derefT h f (r.head, constraints ts) with
  | some r', some R =>
    let frees := ((termVars r'.head).filter fun n => decide (n ∉ Solver2.bodyVs r'.body)).map fun n => Tm.app [.con (.str "$free"), .var n]   -- 70
    match g.types.simp s.2 (R.1, R.2 ++ frees) with                                     -- 74
    | .oof | .err => none
    | .none => some (h, s, .done)                                                       -- 76
    | .ty hd bd => lookI g.types f chart r.head (fun ix t => closeHead g f chart inf r ts (hd, bd) ix t) h s   -- 78
  | _, _ => none

/-- the loop over the rules of the program (61-99) -/
def abbrRule (g : Cfg) (f : Nat) (chart : List Ty) (inf : W) (r : WRule W) : Body (List (WRule W) × Nat) := fun h s =>
  let r := freshR s.2 r                                                                 -- 62
  joinI g.types f chart r.1.body (closeBody g f chart inf r.1) h (s.1, r.2)

/-- `$free` and `$bound` (56) -/
def isInst (c : Tm) : Bool := hfn c == some (.str "$free") || hfn c == some (.str "$bound")

/-- the recovery rules (49-59) -/
def recovery (g : Cfg) (f : Nat) : List (Ty × Nat) → Option (List (WRule W))
  | [] => some []
  | (t, i) :: ts => match isInput f t.1 noHeap g.ins, recovery g f ts with              -- 54
    | some b, some rs => some ((if b then ⟨atom (g.name i) t, .sub t.1 :: (t.2.filter fun c => !isInst c).map .sub⟩   -- 56
        else ⟨t.1, [.sub (atom (g.name i) t)]⟩) :: rs)                                  -- 59
    | _, _ => none

/-- `Abbreviate(program, types)` (32-104); `k` is the allocation mark.  The new rules (the recovery rules are not
renamed here). -/
def abbreviate (g : Cfg) (f k : Nat) (chart : List Ty) (inf : W) (p : List (WRule W)) : Option (List (WRule W)) :=
  match AntiUnify.findPair ⟨fun _ _ => none, fun _ _ _ => none, g.simpNF⟩ f k chart with   -- 40
  | some none => match recovery g f chart.zipIdx, forEach p (abbrRule g f chart inf) noHeap ([], k) with
    | some rs, some (_, s, .done) => some (rs ++ s.1)
    | _, _ => none
  | _ => none

end

end Abbreviate
end Verif
