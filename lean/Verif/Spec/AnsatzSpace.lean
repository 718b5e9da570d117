import Verif.Spec.Mesh
import Verif.Spec.Glue
import Verif.Spec.DiscreteFunction
/-!
# Specification: conformity of discrete functions

Two elements face each other across an edge if they are neighbours in the grid of their patch or lie on both sides of a common edge of two
patches.  Both elements parametrise the edge counter-clockwise, that is, in opposite directions.
-/

namespace Bembel.Spec
open Mesh

/-- Elements `a` and `b` of level `M` face each other across edge `i` of `a`, which is edge `k` of `b`. -/
def Facing {V : Type} (corner : Nat → Nat → V) (M i k : Nat) (a b : Addr) : Prop :=
  i < 4 ∧ k < 4 ∧ (a.1 ≠ b.1 ∧ InterfaceNeighbour corner M i k a b ∨ a.1 = b.1 ∧ k = (i + 2) % 4 ∧ GridNeighbour i a b)

/-- A real matrix as matrix over `R`. -/
noncomputable def ofReal (R : Type) [Field R] [Algebra ℝ R] (A : EMat ℝ) : EMat R := ⟨A.rows, A.cols, fun i j => algebraMap ℝ R (A.at' i j)⟩

/-- The component of a vector field (in parameter coordinates) that is normal to edge `i` of the unit square. -/
def normalComponent (i : Nat) : Nat := if i = 1 ∨ i = 3 then 0 else 1

end Bembel.Spec
