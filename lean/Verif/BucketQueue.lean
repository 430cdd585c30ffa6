/-
Model of `/repo/dyna/util/bucket_queue.py` (class `BucketQueue`, lines 24-87).
-/
import Verif.Dict

set_option linter.unusedSectionVars false
set_option linter.unusedSimpArgs false

namespace Verif

/-- Fields of a `BucketQueue` (bucket_queue.py:25-29): `_D` items to priorities, `_Q` priorities to
buckets (a Python set, here a list without repetitions), `_N` the lower bound (`None` initially). -/
structure BQ (α : Type*) where
  D : Dict α Int
  Q : Dict Int (List α)
  N : Option Int

namespace BQ
variable {α : Type*} [DecidableEq α]

/-- `__init__` (bucket_queue.py:25-29) -/
def empty : BQ α := ⟨[], [], none⟩

/-- Python exceptions a method can raise. -/
inductive Err | keyError | typeError
deriving DecidableEq

/-- `__getitem__` (bucket_queue.py:31-33) -/
def getitem (q : BQ α) (x : α) : Except Err Int :=
  match q.D.get x with
  | some p => .ok p
  | none => .error .keyError

/-- `__delitem__` (bucket_queue.py:35-41).  `set.remove` and `self._Q[priority]` may raise `KeyError`
(a half-done deletion would be left behind; `delitem_ok` shows it cannot happen). -/
def delitem (q : BQ α) (x : α) : Except Err (BQ α) :=
  match q.D.get x with
  | none => .error .keyError
  | some p =>
    let D := q.D.del x
    match q.Q.get p with
    | none => .error .keyError
    | some b =>
      if x ∈ b then
        let b' := b.erase x
        let Q := q.Q.set p b'
        if b' = [] then .ok ⟨D, Q.del p, q.N⟩ else .ok ⟨D, Q, q.N⟩
      else .error .keyError

/-- the lower-bound update inside `__setitem__` (bucket_queue.py:50-51); comparing with `_N = None`
would be a `TypeError`. -/
def bump (Q : Dict Int (List α)) (N : Option Int) (p : Int) : Except Err Int :=
  if Q = [] then .ok p else
  match N with
  | none => .error .typeError
  | some n => if p < n then .ok p else .ok n

/-- `__setitem__` after a possible earlier entry was removed (bucket_queue.py:49-54). -/
def insertNew (q : BQ α) (x : α) (p : Int) : Except Err (BQ α) :=
  match bump q.Q q.N p with
  | .error e => .error e
  | .ok n =>
    let Q := if (q.Q.get p).isSome then q.Q else q.Q.set p []
    let b := (Q.get p).getD []
    .ok ⟨q.D.set x p, Q.set p (if x ∈ b then b else b ++ [x]), some n⟩

/-- `__setitem__` (bucket_queue.py:43-54).  The `TypeError` for non-integer priorities is ruled out
by the type of `p`. -/
def setitem (q : BQ α) (x : α) (p : Int) : Except Err (BQ α) :=
  if (q.D.get x).isSome then
    match q.delitem x with
    | .error e => .error e
    | .ok q => q.insertNew x p
  else q.insertNew x p

/-- The inner loop `while self._N not in self._Q: self._N += 1` (bucket_queue.py:60-61, 68-69) with an
iteration budget; `none` means the budget ran out. -/
def advance (Q : Dict Int (List α)) : Nat → Int → Option Int
  | 0, n => if (Q.get n).isSome then some n else none
  | k + 1, n => if (Q.get n).isSome then some n else advance Q k (n + 1)

/-- `popitem` (bucket_queue.py:66-72), also one step of `__iter__`/`items` (56-64, 74-79).
`next(iter(bucket))` is an arbitrary element of the bucket: `pick` chooses it.
Outer `none`: the inner loop did not stop within `fuel` steps.  Inner `none`: returns Python `None`. -/
def popitem (fuel : Nat) (pick : List α → Option α) (q : BQ α) :
    Option (Except Err (Option (α × Int) × BQ α)) :=
  if q.Q = [] then some (.ok (none, q)) else
  match q.N with
  | none => some (.error .typeError)
  | some n =>
    match advance q.Q fuel n with
    | none => none
    | some n' =>
      match pick ((q.Q.get n').getD []) with
      | none => some (.error .keyError)     -- `next` of an empty iterator (StopIteration)
      | some x =>
        match (⟨q.D, q.Q, some n'⟩ : BQ α).delitem x with
        | .error e => some (.error e)
        | .ok q' => some (.ok (some (x, n'), q'))

/-- `__contains__` (bucket_queue.py:81-83) -/
def contains (q : BQ α) (x : α) : Bool := (q.D.get x).isSome

/-- `__len__` (bucket_queue.py:85-87) -/
def len (q : BQ α) : Nat := List.length q.D

end BQ
end Verif
