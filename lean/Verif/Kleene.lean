/-
Model of `/repo/dyna/execute/linear.py`: `kleene` (lines 6-28), `pack_arrays` (95-119) and the final
solve of `kleene_linsolve` (line 87-89); and of `Graph.transitive_closure`
(`/repo/dyna/util/graphs.py:303-330`), which calls `kleene` in the Boolean semiring.
numpy arrays are functions on `Fin N`; floats are replaced by an arbitrary semiring.
-/
import Verif.Dict
import Mathlib.Algebra.Ring.Defs
import Mathlib.Data.Fintype.Basic
import Mathlib.Data.List.FinRange

namespace Verif
namespace Kleene

/-- one pass of the outer loop of `kleene` (linear.py:18-25) for the pivot `j` -/
def pivot {R : Type*} [Mul R] [Add R] {N : Nat} (star : R → R) (old : Fin N → Fin N → R) (j : Fin N) :
    Fin N → Fin N → R :=
  let sjj := star (old j j)
  fun i k => old i k + old i j * sjj * old j k

/-- the pivoting loop of `kleene` (linear.py:17-25) -/
def loop {R : Type*} [Mul R] [Add R] {N : Nat} (star : R → R) (A : Fin N → Fin N → R) :
    Fin N → Fin N → R :=
  (List.finRange N).foldl (pivot star) A

/-- `kleene(A, semiring, reflexive)` (linear.py:6-28) -/
def kleene {R : Type*} [Mul R] [Add R] [One R] {N : Nat} (star : R → R) (A : Fin N → Fin N → R)
    (reflexive : Bool := true) : Fin N → Fin N → R :=
  let old := loop star A
  if reflexive then fun i k => if i = k then old i k + 1 else old i k else old

/-- `Integerizer`: position of an item in the alphabet, allocated in order of first use
(only its list of keys matters here). -/
def intern {ι : Type*} [DecidableEq ι] (ix : List ι) (x : ι) : List ι :=
  if x ∈ ix then ix else ix ++ [x]

/-- `pack_arrays.__init__` (linear.py:100-104): the alphabet. -/
def alphabet {ι R : Type*} [DecidableEq ι] (M : Dict (ι × ι) R) (V : Dict ι R) : List ι :=
  (V.keys).foldl intern ((M.keys).foldl (fun ix ij => intern (intern ix ij.1) ij.2) [])

/-- `pack_arrays`: the matrix `MM` (linear.py:106-108), zero where `M` has no entry. -/
def packM {ι R : Type*} [DecidableEq ι] [Zero R] (M : Dict (ι × ι) R) (ix : List ι) :
    Fin ix.length → Fin ix.length → R :=
  fun a b => (M.get (ix[a], ix[b])).getD 0

/-- `pack_arrays`: the vector `VV` (linear.py:110-112). -/
def packV {ι R : Type*} [DecidableEq ι] [Zero R] (V : Dict ι R) (ix : List ι) : Fin ix.length → R :=
  fun a => (V.get ix[a]).getD 0

/-- `sol = kleene(pack.MM, p.Semiring) @ pack.VV` (linear.py:87): numpy's `@`. -/
def linsolve {ι R : Type*} [DecidableEq ι] [Semiring R] (star : R → R) (M : Dict (ι × ι) R)
    (V : Dict ι R) : Fin (alphabet M V).length → R :=
  let ix := alphabet M V
  let B := kleene star (packM M ix)
  fun i => ((List.finRange ix.length).map fun k => B i k * packV V ix k).sum

end Kleene
end Verif
