import Verif.Model.Quadrature
/-! # Specification: symmetric quadrature rules -/

namespace Bembel.Props
open H2

/-- The rule is symmetric with respect to the midpoint of the unit interval. -/
def Reflective (q : Quad1 ℝ) : Prop :=
  ∃ σ : Nat → Nat, ∀ i < q.size, σ i < q.size ∧ σ (σ i) = i ∧ q.xi (σ i) = 1 - q.xi i ∧ q.w (σ i) = q.w i

end Bembel.Props
