/-
`Program.linearize` (`/repo/dyna/program.py` 1831-1862).

`sig` says which functors with which number of arguments are builtin (`BUILTIN_SIGS`, builtin.py:66-90).
Fresh variables are numbered from the allocation mark on.  Not modelled: the tag `analyzer.linearized` put on
the added rules.
-/
import Verif.Hook

set_option linter.unusedSectionVars false
set_option linter.unusedSimpArgs false

namespace Verif
open Tm Heap
open Solver (noHeap)

namespace Linearize
open Unfold (Prog freshR)
open Hook (genFunctor)
variable {W : Type}

/-- which functors with which number of arguments are builtin -/
abbrev Sigs := Const → Nat → Bool

/-- `is_builtin(x)` (builtin.py:85-90) -/
def isBuiltin (sig : Sigs) : Tm → Bool
  | .var _ => true
  | .app (.con c :: as) => sig c as.length
  | _ => false

/-- `unifies(x, y)` for two body elements, the first one neither constant nor variable -/
def litUnifies (f : Nat) : Lit W → Lit W → Option Bool
  | .sub a, .sub b => unifiesF f a b noHeap
  | _, _ => some false

/-- the three tests of lines 1842-1844; `true` if the subgoal is compared with the later ones -/
def candidate (f : Nat) (sig : Sigs) (drv : Option Tm) : Lit W → Option Bool
  | .val _ => some false
  | .sub t =>
    match drv with
    | none => some (!isBuiltin sig t)
    | some d => match unifiesF f t d noHeap with
      | none => none
      | some false => some false
      | some true => some (!isBuiltin sig t)

/-- the loop over `k` (1845-1848) -/
def scanK (f : Nat) (x : Lit W) : List (Lit W × Nat) → Option (List Nat)
  | [] => some []
  | yk :: l => match litUnifies f x yk.1, scanK f x l with
    | some b, some ks => some (if b then yk.2 :: ks else ks)
    | _, _ => none

/-- the loop over `j` (1841-1848) -/
def scanJ (f : Nat) (sig : Sigs) (drv : Option Tm) : List (Lit W × Nat) → Option (List Nat)
  | [] => some []
  | xj :: l => match candidate f sig drv xj.1, scanJ f sig drv l with
    | some false, some ks => some ks
    | some true, some ks => match scanK f xj.1 l with
      | some ks' => some (ks' ++ ks)
      | none => none
    | _, _ => none

/-- the loop over the rules (1839-1848), before duplicates are dropped -/
def scan (f : Nat) (sig : Sigs) (drv : Option Tm) : List (WRule W × Nat) → Option (List (Nat × Nat))
  | [] => some []
  | si :: l => match scanJ f sig drv si.1.body.zipIdx, scan f sig drv l with
    | some ks, some r => some (ks.map (fun k => (si.2, k)) ++ r)
    | _, _ => none

/-- the elements in order of first insertion (`OrderedSet`) -/
def ordSet {α : Type} [DecidableEq α] (l : List α) : List α := l.foldl (fun s a => if a ∈ s then s else s ++ [a]) []

/-- `new_rules`, the allocation mark and the counter of generated names -/
structure LS (W : Type) where
  rules : List (WRule W)
  k : Nat
  c : Nat

/-- one round of the second loop (1853-1861); `none` is an exception: an `AttributeError` if the subgoal has no
arguments (is a variable), an `AssertionError` if the generated name is in use -/
def step (p : Prog W) (st : LS W) (ik : Nat × Nat) : Option (LS W) :=
  match st.rules[ik.1]? with
  | none => none
  | some r => match r.body[ik.2]? with
    | some (.sub (.app (fn :: args))) =>
      match genFunctor p st.c with
      | none => none
      | some (name, c) =>
        let h := Tm.app (.con name :: args)
        let d := freshR st.k ⟨h, [.sub (.app (fn :: args))]⟩
        let r' := freshR d.2 ⟨r.head, r.body.set ik.2 (.sub h)⟩
        some ⟨(st.rules ++ [d.1]).set ik.1 r'.1, r'.2, c⟩
    | _ => none

/-- the second loop -/
def steps (p : Prog W) : LS W → List (Nat × Nat) → Option (LS W)
  | st, [] => some st
  | st, ik :: l => match step p st ik with
    | none => none
    | some st => steps p st l

/-- `self.linearize(driver)`: the outer `none` means that fuel ran out, the inner one is an exception.
If nothing overlaps the program itself is returned (1850-1851), which `steps` does as well. -/
def linearize (f : Nat) (sig : Sigs) (p : Prog W) (k c : Nat) (drv : Option Tm) : Option (Option (LS W)) :=
  match scan f sig drv p.rules.zipIdx with
  | none => none
  | some tmps => some (steps p ⟨p.rules, k, c⟩ (ordSet tmps))

end Linearize
end Verif
