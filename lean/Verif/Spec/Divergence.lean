import Verif.Spec.AnsatzSpace
import Verif.Spec.Quadrature
/-!
# Specification: total divergence and boundary fluxes of a discrete vector field
-/

namespace Bembel.Spec
open Finset Mesh Glue H2

/-- The surface has no boundary: every patch edge belongs to another patch as well. -/
def ClosedPatches {V : Type} (corner : Nat → Nat → V) (nP : Nat) : Prop :=
  ∀ p < nP, ∀ i < 4, ∃ q < nP, q ≠ p ∧ ∃ k < 4, patchEdge corner p i = patchEdge corner q k

/-- Edge `i` of element `a` of level `M` is part of the boundary of the surface. -/
def OnBoundary {V : Type} (corner : Nat → Nat → V) (nP M i : Nat) (a : Addr) : Prop :=
  OnEdge M i a ∧ ∀ q < nP, q ≠ a.1 → ∀ k < 4, patchEdge corner a.1 i ≠ patchEdge corner q k

variable {R : Type} [Field R] [Algebra ℝ R]

/-- Integral of the divergence over element `n`: the element has area `h^2` in the patch coordinates. -/
noncomputable def totalDiv (Q : Cubature ℝ) (T f : EMat R) (nE P n : Nat) (h : ℝ) : R :=
  ∑ k ∈ range Q.size, (h ^ 2 * Q.w k) • discreteDiv T f nE P n h (Q.xi k)

/-- Flux out of element `n` through its edge `i`, which has length `h` in the patch coordinates. -/
noncomputable def edgeFlux (q : Quad1 ℝ) (T f : EMat R) (nE P n : Nat) (h : ℝ) (i : Nat) : R :=
  ∑ b ∈ range q.size, (h * q.w b) • ((outwardSign i : ℝ) • discreteFunction T f nE P (normalComponent i) n h (edgePoint i (q.xi b)))

end Bembel.Spec
