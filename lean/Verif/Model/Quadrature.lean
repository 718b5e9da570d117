import Mathlib.Analysis.Real.Sqrt
import Verif.Model.GaussTables
/-!
# Model of the quadrature module, `Quadrature/*.hpp`

Exact real arithmetic.  The eigenvalue solver of Eigen is a parameter, see `EigenSolver`.
-/

namespace Bembel
namespace H2

/-- A one-dimensional quadrature rule, Quadrature/Quadrature.hpp l.24-28: `size` nodes `xi` with weights `w`. -/
structure Quad1 (K : Type) where
  size : Nat
  w : Nat → K
  xi : Nat → K

end H2

open H2

/-- `Cubature`, Quadrature/Cubature.hpp l.16-17 and Quadrature.hpp l.24-28: `size` nodes `xi` in the plane with weights `w`. -/
structure Cubature (K : Type) where
  size : Nat
  w : Nat → K
  xi : Nat → K × K

/-- The constructor loop of `TensorProductQuadratureVector`, TensorProductQuadratureVector.hpp l.24-32 and l.47-55. -/
def tensorRule {K : Type} [Mul K] (q : Quad1 K) : Cubature K where
  size := q.size * q.size
  w := fun k => q.w (k / q.size) * q.w (k % q.size)
  xi := fun k => (q.xi (k / q.size), q.xi (k % q.size))

/-- `QuadratureVector<QuadratureRule, Order>::operator[]`, QuadratureVector.hpp l.25-56; `rule n` is the object
`QuadratureRule<n>`. -/
def quadratureVector {K : Type} (rule : Nat → Quad1 K) : Nat → Nat → Quad1 K
  | 0, _ => rule 1
  | o + 1, i => if i = o + 1 then rule (o + 1 + 1) else quadratureVector rule o i

/-- `TensorProductQuadratureVector<QuadratureRule, Order>::operator[]`, TensorProductQuadratureVector.hpp l.23-58. -/
def tensorProductQuadratureVector {K : Type} [Mul K] (rule : Nat → Quad1 K) : Nat → Nat → Cubature K
  | 0, _ => tensorRule (rule 1)
  | o + 1, i => if i = o + 1 then tensorRule (rule (o + 1 + 1)) else tensorProductQuadratureVector rule o i

/-- The matrix `A` of the primary template, GaussLegendreRule.hpp l.30-32: set to zero, then one subdiagonal is written. -/
noncomputable def gaussMatrix (order : Nat) : Nat → Nat → ℝ :=
  (List.range (order - 1)).foldl (fun A k => fun a b =>
    if a = k + 1 ∧ b = k + 1 - 1 then ((k + 1 : ℕ) : ℝ) / Real.sqrt (4 * ((k + 1 : ℕ) : ℝ) * ((k + 1 : ℕ) : ℝ) - 1) else A a b)
    (fun _ _ => 0)

/-- Result of `Eigen::SelfAdjointEigenSolver`: eigenvalues and eigenvectors (columns). -/
structure EigenPairs where
  val : Nat → ℝ
  vec : Nat → Nat → ℝ

/-- The external routine `Eigen::SelfAdjointEigenSolver<MatrixXd>::compute`; the arguments are size and matrix. -/
abbrev EigenSolver := Nat → (Nat → Nat → ℝ) → EigenPairs

/-- The primary template `GaussLegendreRule<Order>`, GaussLegendreRule.hpp l.27-44. -/
noncomputable def gaussLegendreGeneric (es : EigenSolver) (order : Nat) : Quad1 ℝ where
  size := order
  xi := fun i => 0.5 * ((es order (gaussMatrix order)).val i + 1)
  w := fun i => (es order (gaussMatrix order)).vec 0 i * (es order (gaussMatrix order)).vec 0 i

/-- A table read as exact decimals. -/
noncomputable def tabulated (l : List Nat × List Nat) : Quad1 ℝ where
  size := l.1.length
  xi := fun k => (l.1.getD k 0 : ℝ) / GaussTables.den
  w := fun k => (l.2.getD k 0 : ℝ) / GaussTables.den

/-- `GaussLegendreRule<Order>`, GaussLegendreRule.hpp l.27-689: explicit specialisation if there is one, else the primary
template. -/
noncomputable def gaussLegendreRule (es : EigenSolver) (order : Nat) : Quad1 ℝ :=
  match GaussTables.table order with
  | some l => tabulated l
  | none => gaussLegendreGeneric es order

/-- `GaussLegendre<Order>`, GaussLegendre.hpp l.17-18: `operator[]`. -/
noncomputable def gaussLegendre (es : EigenSolver) (order i : Nat) : Quad1 ℝ :=
  quadratureVector (gaussLegendreRule es) order i

/-- `GaussSquare<Order>`, GaussSquare.hpp l.16-17: `operator[]`. -/
noncomputable def gaussSquare (es : EigenSolver) (order i : Nat) : Cubature ℝ :=
  tensorProductQuadratureVector (gaussLegendreRule es) order i

end Bembel
