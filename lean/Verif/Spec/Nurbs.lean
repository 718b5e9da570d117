import Verif.Spec.BSpline
import Mathlib.Algebra.BigOperators.Group.Finset.Basic
import Mathlib.Data.Real.Basic
/-!
# Specification: open knot vectors and NURBS surfaces
-/

namespace Bembel.Spec
open Finset

/-- `t 0, …, t (n + p)` is an open knot vector on `[0, 1]` for `n` B-splines of degree `p`: nondecreasing, exactly the first `p + 1` knots are 0
and exactly the last `p + 1` are 1, and different consecutive knots have distance larger than `1e-6`.  Interior knots may be repeated. -/
structure OpenKnots (t : Nat → ℝ) (n p : Nat) : Prop where
  mono : Monotone t
  dim : p < n
  first : t 0 = 0
  clamped : t p = 0
  start : 0 < t (p + 1)
  inner : t (n - 1) < 1
  last : t n = 1
  final : t (n + p) = 1
  gap : ∀ i < n + p, t i = t (i + 1) ∨ t i + 1 / 1000000 < t (i + 1)

/-- The tensor product spline with coefficients `c j i` (row `j`: second direction, column `i`: first direction). -/
noncomputable def tensorSpline (tx : Nat → ℝ) (nx p : Nat) (ty : Nat → ℝ) (ny q : Nat) (c : Nat → Nat → ℝ) (u v : ℝ) : ℝ :=
  ∑ i ∈ range nx, ∑ j ∈ range ny, bspline tx nx u p i * bspline ty ny v q j * c j i

/-- `inv n A` is the inverse of every `n × n` matrix `A` with trivial kernel. -/
def InvertsMatrices (inv : Nat → (Nat → Nat → ℝ) → Nat → Nat → ℝ) : Prop :=
  ∀ (n : Nat) (A : Nat → Nat → ℝ), (∀ y : Nat → ℝ, (∀ r < n, ∑ c ∈ range n, A r c * y c = 0) → ∀ c < n, y c = 0) →
    ∀ r < n, ∀ c < n, ∑ k ∈ range n, inv n A r k * A k c = if r = c then 1 else 0

end Bembel.Spec
