import Verif.Spec.Operators
import Verif.Model.EMat
/-!
# Specification: the function given by a vector of degrees of freedom

`T` is the transformation matrix of the ansatz space, `f` the vector of degrees of freedom.  The entries of `T f` are ordered by vector
component `d`, then element number `n` (there are `nE` elements), then shape function `i` (there are `(P + 1)^2` on an element).  On the
element with mesh width `h` the shape functions are scaled with `1 / h`.
-/

namespace Bembel.Spec
open Finset

variable {R : Type} [Field R] [Algebra ℝ R]

/-- Coefficient of shape function `i` of component `d` on element `n`. -/
def localCoeff (T f : EMat R) (nE P d n i : Nat) : R :=
  ∑ c ∈ range T.cols, T.at' (d * ((P + 1) * (P + 1) * nE) + ((P + 1) * (P + 1) * n + i)) c * f.at' c 0

/-- Component `d` of the function at the local coordinates `s` of element `n`. -/
noncomputable def discreteFunction (T f : EMat R) (nE P d n : Nat) (h : ℝ) (s : ℝ × ℝ) : R :=
  algebraMap ℝ R (1 / h) * ∑ i ∈ range ((P + 1) * (P + 1)), localCoeff T f nE P d n i * algebraMap ℝ R (shape P i s)

/-- The vector field with components `(u, v)`: `(u dx + v dy)`, where `dx`, `dy` are the tangents. -/
noncomputable def discreteField (T f : EMat R) (nE P n : Nat) (h : ℝ) (s : ℝ × ℝ) (dx dy : V3) (k : Fin 3) : R :=
  algebraMap ℝ R (dx k) * discreteFunction T f nE P 0 n h s + algebraMap ℝ R (dy k) * discreteFunction T f nE P 1 n h s

/-- Its divergence in the patch coordinates `x = llc + h s`: the derivatives of the components are scaled with another `1 / h`. -/
noncomputable def discreteDiv (T f : EMat R) (nE P n : Nat) (h : ℝ) (s : ℝ × ℝ) : R :=
  algebraMap ℝ R (1 / h ^ 2) * ∑ i ∈ range ((P + 1) * (P + 1)),
    (localCoeff T f nE P 0 n i * algebraMap ℝ R (shapeDx P i s) + localCoeff T f nE P 1 n i * algebraMap ℝ R (shapeDy P i s))

end Bembel.Spec
