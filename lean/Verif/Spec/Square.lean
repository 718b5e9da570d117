import Verif.Model.SurfacePoint
/-!
# Regular parametrisations

All maps of a geometry are defined on the closed unit square; nothing is assumed of them elsewhere.
-/

namespace Bembel.Spec

/-- The closed unit square, the domain of all patches. -/
def ClosedSquare (x : ℝ × ℝ) : Prop := 0 ≤ x.1 ∧ x.1 ≤ 1 ∧ 0 ≤ x.2 ∧ x.2 ≤ 1

/-- The parametrisations of the `P` patches are regular: the tangents are linearly independent everywhere on the unit square. -/
def RegularPatches (P : Nat) (geo : Nat → ℝ × ℝ → V3 × V3 × V3) : Prop :=
  ∀ p < P, ∀ x, ClosedSquare x → cross3 (geo p x).2.1 (geo p x).2.2 ≠ 0

end Bembel.Spec
