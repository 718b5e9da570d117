import Mathlib.Algebra.Order.Field.Basic
/-! # Specification: B-spline basis by the Cox–de Boor recursion (independent of the model) -/

namespace Bembel.Spec

variable {K : Type} [Field K] [LinearOrder K]

/-- Indicator of the knot span `i` at `x` for the knots `t` and `n` basis functions: half-open spans
`[t i, t (i+1))` of the parameter domain `[t 0, t n]`; the right end point `x = t n` belongs to the
non-empty span that ends there. -/
def inSpan (t : Nat → K) (n i : Nat) (x : K) : Prop :=
  i < n ∧ t i ≤ x ∧ (x < t (i + 1) ∨ (x = t n ∧ t (i + 1) = t n ∧ t i < t (i + 1)))

open Classical in
/-- Cox–de Boor recursion, `N_{i,k}(x)`, with the usual convention `0/0 = 0` (division by zero is zero in
`K`). -/
noncomputable def bspline (t : Nat → K) (n : Nat) (x : K) : Nat → Nat → K
  | 0, i => if inSpan t n i x then 1 else 0
  | k + 1, i =>
    (x - t i) / (t (i + k + 1) - t i) * bspline t n x k i +
      (t (i + k + 2) - x) / (t (i + k + 2) - t (i + 1)) * bspline t n x k (i + 1)

end Bembel.Spec
