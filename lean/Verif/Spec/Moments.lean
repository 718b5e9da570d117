import Verif.Spec.Multipole
import Verif.Spec.Mesh
/-! # Specification: coordinates of element points in a cluster -/

namespace Bembel
namespace H2
variable {K : Type} [Field K]

/-- Coordinates in the square of cluster `a` of the point of element `b` with the local coordinates `xi`. -/
def inCluster (t : Mesh.Tree K) (a b : Mesh.Addr) (xi : K × K) : K × K :=
  Mesh.mapToReferenceElement t a
    ((t.llc b).1 + Mesh.getH t b * xi.1, (t.llc b).2 + Mesh.getH t b * xi.2)

end H2
end Bembel
