import Verif.Spec.DiscreteFunction
import Verif.Spec.Potential
/-! # Specification: test functions and surface gradients -/

namespace Bembel.Spec
open Finset

variable {R : Type} [Field R] [Algebra ℝ R]

/-- The vector of degrees of freedom of the `c`-th ansatz function: a unit vector of length `n`. -/
def unitVec (n c : Nat) : EMat R := ⟨n, 1, fun i _ => if i = c then 1 else 0⟩

/-- Partial derivative of component `d` of the discrete function in the first patch coordinate (the local coordinate is scaled with the
mesh width `h`). -/
noncomputable def discreteDx (T f : EMat R) (nE P d n : Nat) (h : ℝ) (s : ℝ × ℝ) : R :=
  algebraMap ℝ R (1 / h ^ 2) * ∑ i ∈ range ((P + 1) * (P + 1)), localCoeff T f nE P d n i * algebraMap ℝ R (shapeDx P i s)

/-- Partial derivative in the second patch coordinate. -/
noncomputable def discreteDy (T f : EMat R) (nE P d n : Nat) (h : ℝ) (s : ℝ × ℝ) : R :=
  algebraMap ℝ R (1 / h ^ 2) * ∑ i ∈ range ((P + 1) * (P + 1)), localCoeff T f nE P d n i * algebraMap ℝ R (shapeDy P i s)

/-- `g` is the surface gradient of a function with partial derivatives `ux`, `uy` at a point with tangents `dx`, `dy`: it is tangential
and its products with the tangents are the partial derivatives. -/
def IsSurfaceGradient (dx dy : V3) (ux uy : ℝ) (g : V3) : Prop :=
  (∃ α β : ℝ, g = α • dx + β • dy) ∧ inner ℝ g dx = ux ∧ inner ℝ g dy = uy

end Bembel.Spec
