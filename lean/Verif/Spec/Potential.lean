import Verif.Model.SurfacePoint
import Verif.Model.Quadrature
/-! # Specification: quadrature on the surface -/

namespace Bembel.Spec
open Finset Mesh

variable {R : Type} [Field R] [Algebra ℝ R]

/-- Point `s` of element `a`: local coordinates, position and tangents (with respect to the patch coordinates); weight one. -/
noncomputable def elementPoint (t : Mesh.Tree ℝ) (geo : Nat → ℝ × ℝ → V3 × V3 × V3) (a : Addr) (s : ℝ × ℝ) : SurfPt :=
  let g := geo (t.patch a) ((t.llc a).1 + getH t a * s.1, (t.llc a).2 + getH t a * s.2)
  ⟨s, 1, g.1, g.2.1, g.2.2⟩

/-- `∑ elements ∑ nodes h^2 w g`: the quadrature `Q` of a function `g` on all elements of a list, in the parameter domain of
the patches. -/
noncomputable def surfaceQuad (t : Mesh.Tree ℝ) (geo : Nat → ℝ × ℝ → V3 × V3 × V3) (Q : Cubature ℝ) (els : List Addr)
    (g : Addr → SurfPt → R) : R :=
  (els.map fun a => ∑ j ∈ range Q.size, algebraMap ℝ R (getH t a ^ 2 * Q.w j) * g a (elementPoint t geo a (Q.xi j))).sum

end Bembel.Spec
