import Mathlib.MeasureTheory.Integral.IntervalIntegral.Basic
import Mathlib.Algebra.Polynomial.Eval.Degree
import Verif.Model.Quadrature
/-! # Specification of quadrature rules -/

namespace Bembel

open Finset

namespace Props
open H2

/-- The rule `Q` integrates all polynomials up to degree `D` exactly on the unit interval. -/
def ExactTo (Q : Quad1 ℝ) (D : Nat) : Prop :=
  ∀ f : Polynomial ℝ, f.natDegree ≤ D → ∑ q ∈ range Q.size, Q.w q * f.eval (Q.xi q) = ∫ x in (0:ℝ)..1, f.eval x

end Props

/-- `r` is a correct (exact) eigendecomposition of the symmetric matrix of size `n` whose lower triangle is that of `A`:
the contract of `Eigen::SelfAdjointEigenSolver`, which references only the lower triangle.  The vectors are orthonormal and
`S V = V diag(val)`. -/
def EigenCorrect (n : Nat) (A : Nat → Nat → ℝ) (r : EigenPairs) : Prop :=
  (∀ i < n, ∀ k < n, ∑ j ∈ range n, (if j ≤ i then A i j else A j i) * r.vec j k = r.val k * r.vec i k) ∧
  (∀ k < n, ∀ l < n, ∑ j ∈ range n, r.vec j k * r.vec j l = if k = l then 1 else 0)

/-- The external eigenvalue solver works correctly on the matrices it is given. -/
def SolverCorrect (es : EigenSolver) : Prop := ∀ n A, EigenCorrect n A (es n A)

end Bembel
