import Verif.Model.Projector
import Verif.Model.Glue
import Verif.Model.ElementTree
/-!
# Model of `AnsatzSpace/AnsatzSpace.hpp`: the transformation matrix

The projector is multiplied with the glue matrix.  The element tree `t` of the super space is given; `P`, `M`, `nP` are its degree,
refinement level and number of patches, `rep` is the knot repetition.
-/

namespace Bembel
namespace Ansatz
open Mesh Projector Glue

variable {K : Type} [Field K] [LinearOrder K]

/-- The glue matrix as sparse matrix, `assembleGlueMatrix`, Glue.hpp l.153-222 (`setFromTriplets` l.217-218); `pre` is the number of dofs
after the projector. -/
def glueMat (K : Type) [Field K] (pre : Nat) (ids : List Ident) : Option (EMat K) := do
  let g ← assembleGlueMatrix pre ids
  setFromTriplets pre g.1 (g.2.map fun x => (x.1, x.2.1, (x.2.2 : K)))

/-- `init_AnsatzSpace`, AnsatzSpace.hpp l.102-111, for discontinuous spaces: nothing is identified (Glue.hpp l.342-349). -/
def transformationDisc (junk : Nat → K) (junkM : Nat → Nat → K) (solve : Nat → (Nat → Nat → K) → (Nat → K) → Nat → K) (t : Mesh.Tree K)
    (P M nP rep : Nat) : Option (EMat K) := do
  let T ← makeMatrixDisc junk junkM solve t P M nP rep
  let G ← glueMat K T.cols []
  T.mul G

/-- `init_AnsatzSpace`, AnsatzSpace.hpp l.102-111, for continuous spaces. -/
def transformationCont (junk : Nat → K) (junkM : Nat → Nat → K) (solve : Nat → (Nat → Nat → K) → (Nat → K) → Nat → K) (t : Mesh.Tree K)
    (P M nP rep : Nat) : Option (EMat K) := do
  let T ← makeMatrixCont junk junkM solve t P M nP rep
  let ids ← makeIdentificationCont P rep M T.cols (patchTopologyInfo t)
  let G ← glueMat K T.cols ids
  T.mul G

/-- `init_AnsatzSpace`, AnsatzSpace.hpp l.102-111, for divergence conforming spaces. -/
def transformationDiv (junk : Nat → K) (junkM : Nat → Nat → K) (solve : Nat → (Nat → Nat → K) → (Nat → K) → Nat → K) (t : Mesh.Tree K)
    (P M nP rep : Nat) : Option (EMat K) := do
  let T ← makeMatrixDiv junk junkM solve t P M nP rep
  let ids ← makeIdentificationDiv P rep M nP T.cols (patchTopologyInfo t)
  let G ← glueMat K T.cols ids
  T.mul G

end Ansatz
end Bembel
