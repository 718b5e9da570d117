import Verif.Model.ElementTree
import Verif.Model.SurfacePoint
/-! # The orientation test of the mesh, ClusterTree/ClusterTree.hpp l.137-159 -/

namespace Bembel
namespace Mesh

/-- Column `i` of `Constants::edgemps`, util/Constants.hpp l.29: the midpoint of edge `i` of the unit square. -/
noncomputable def edgeMidpoint (i : Nat) : ℝ × ℝ :=
  (([0.5, 1, 0.5, 0, 0.5] : List ℝ).getD i 0, ([0, 0.5, 1, 0.5, 0.5] : List ℝ).getD i 0)

/-- `checkOrientation`, ClusterTree/ClusterTree.hpp l.137-159: whether none of the assertions fails.  `geo p` gives the position
and the two tangents of patch `p` (`eval`, `evalJacobian`); `evalNormal` is the cross product of the tangents
(Geometry/Patch.hpp l.240-244).  Without assertions the function has no effect. -/
def checkOrientation (geo : Nat → ℝ × ℝ → V3 × V3 × V3) (t : Tree ℝ) : Prop :=
  ∀ edge ∈ patchTopologyInfo t, edge.2.2.1 > 0 ∧ edge.2.2.2 > 0 →
    let A := geo edge.1.toNat (edgeMidpoint edge.2.2.1.toNat)
    let B := geo edge.2.1.toNat (edgeMidpoint edge.2.2.2.toNat)
    let a := A.1
    let b := B.1
    let _na := cross3 A.2.1 A.2.2
    let _nb := cross3 B.2.1 B.2.2
    ‖a - b‖ < 1e-9 ∧ inner ℝ a b > 0

end Mesh
end Bembel
