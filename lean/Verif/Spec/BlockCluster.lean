import Verif.Model.BlockClusterTree
/-!
# Specification: the index block of a leaf of the block cluster tree
-/

namespace Bembel
namespace BlockCluster

/-- Matrix entry `(r, c)` lies in the index block reported by the getters of block `b`; `pp` is the number of local
degrees of freedom per element. -/
def Covers {K : Type} (t : Mesh.Tree K) (pp : Nat) (b : BTree) (r c : Nat) : Prop :=
  ∃ r0 r1 c0 c1, rowStart t pp b = some r0 ∧ rowEnd t pp b = some r1 ∧ colStart t pp b = some c0 ∧
    colEnd t pp b = some c1 ∧ r0 ≤ r ∧ r < r1 ∧ c0 ≤ c ∧ c < c1

end BlockCluster
end Bembel
