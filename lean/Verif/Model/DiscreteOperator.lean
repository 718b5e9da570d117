import Verif.Model.EMat
import Verif.Model.Bernstein
import Verif.Model.ElementTree
/-!
# Model of the dense assembly, `LinearOperator/DiscreteOperator.hpp`

One OpenMP task per pair of elements.  A task computes its private matrix `intval` and then assigns blocks of the shared matrix;
no task reads the shared matrix.  The execution of the parallel region is therefore given by the order in which the single entry
assignments of all tasks take effect; every interleaving of the tasks on any number of threads is such an order.
`pair a b` is the matrix computed by `evaluateBilinearForm` for the elements `a`, `b` (see `Model/Duffy.lean`), `vd` the vector
dimension and `n` the number of shape functions per element and component.
-/

namespace Bembel
namespace Dense
open Mesh

variable {R : Type} {K : Type}

/-- Assignment of one matrix entry. -/
structure Write (R : Type) where
  row : Nat
  col : Nat
  val : R

/-- The assignments of one task, DiscreteOperator.hpp l.67-78: blocks `(i, j)`, each column by column. -/
def taskWrites (vd n nE id1 id2 : Nat) (v : Nat → Nat → R) : List (Write R) :=
  (List.range vd).flatMap fun i => (List.range vd).flatMap fun j =>
    (List.range n).flatMap fun c => (List.range n).map fun r =>
      ⟨n * (i * nE + id1) + r, n * (j * nE + id2) + c, v (i * n + r) (j * n + c)⟩

/-- All tasks in the order of their creation, DiscreteOperator.hpp l.54-66; `none` if the computation of a pair fails. -/
def tasks (t : Mesh.Tree K) (vd n : Nat) (pair : Addr → Addr → Option (Nat → Nat → R)) : Option (List (List (Write R))) := do
  let els ← Mesh.elements t
  (els.flatMap fun a => els.map fun b => (a, b)).mapM fun e =>
    (pair e.1 e.2).map (taskWrites vd n t.nElements (t.id e.1) (t.id e.2))

/-- One assignment; `none` is an access out of bounds. -/
def write (A : EMat R) (w : Write R) : Option (EMat R) :=
  if w.row < A.rows ∧ w.col < A.cols then
    some ⟨A.rows, A.cols, fun i j => if i = w.row ∧ j = w.col then w.val else A.at' i j⟩
  else none

/-- The matrix after the parallel region, DiscreteOperator.hpp l.46-82: `ws` is the order of the assignments, `junk` the contents
of the matrix after `resize`. -/
def assemble (junk : Nat → Nat → R) (t : Mesh.Tree K) (vd n : Nat) (ws : List (Write R)) : Option (EMat R) :=
  ws.foldlM write ⟨vd * n * t.nElements, vd * n * t.nElements, junk⟩

/-- `compute`, DiscreteOperator.hpp l.31-86; `T` is the transformation matrix of the ansatz space. -/
def compute [CommRing R] (junk : Nat → Nat → R) (t : Mesh.Tree K) (vd n : Nat) (ws : List (Write R)) (T : EMat R) :
    Option (EMat R) := do
  let A ← assemble junk t vd n ws
  let AT ← A.mul T
  T.tr.mul AT

end Dense
end Bembel
