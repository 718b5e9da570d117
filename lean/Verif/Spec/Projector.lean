import Verif.Spec.BSpline
import Verif.Spec.DiscreteFunction
import Verif.Spec.Mesh
import Mathlib.Algebra.BigOperators.Group.Finset.Basic
/-!
# Specification: tensor product B-splines on a patch
-/

namespace Bembel.Spec
open Finset

/-- Knot number `i` of the knot vector of order `q` (degree `q - 1`) on `[0, 1]` with `n` equal spans and interior knots repeated `r` times. -/
def uniformKnot {K : Type} [Field K] (q n r i : Nat) : K :=
  if i < q then 0 else if i < q + (n - 1) * r then (((i - q) / r + 1 : Nat) : K) / n else 1

/-- Dimension of the spline space. -/
def splineDim (q n r : Nat) : Nat := q + (n - 1) * r

/-- B-spline number `i` of order `q`. -/
noncomputable def uniformSpline (q n r i : Nat) (x : ℝ) : ℝ := bspline (uniformKnot q n r) (splineDim q n r) x (q - 1) i

/-- Tensor product B-spline of orders `qx`, `qy`; the first direction runs fastest. -/
noncomputable def patchSpline (qx qy n r c : Nat) (x : ℝ × ℝ) : ℝ :=
  uniformSpline qx n r (c % splineDim qx n r) x.1 * uniformSpline qy n r (c / splineDim qx n r) x.2

/-- `solve` solves linear systems with a unique solution. -/
def SolvesSystems (solve : Nat → (Nat → Nat → ℝ) → (Nat → ℝ) → Nat → ℝ) : Prop :=
  ∀ (n : Nat) (A : Nat → Nat → ℝ) (b x : Nat → ℝ), (∀ r < n, ∑ c ∈ range n, A r c * x c = b r) →
    (∀ y : Nat → ℝ, (∀ r < n, ∑ c ∈ range n, A r c * y c = 0) → ∀ c < n, y c = 0) → ∀ c < n, solve n A b c = x c

/-- The columns `co + pa * dim + c` of `T` contain, in the rows starting with `ro`, the B-spline number `c` of patch `pa` (orders `qx`, `qy`,
`2 ^ M` spans in each direction, knots repeated `r` times): on every element the combination of the shape functions with the coefficients from
the rows of the element is the B-spline up to `eps`, and zero on the elements of other patches. -/
def ContainsSplines (T : EMat ℝ) (t : Mesh.Tree ℝ) (P M nP qx qy r ro co : Nat) (eps : ℝ) : Prop :=
  ∀ a, Mesh.IsNode nP M a → ∀ pa < nP, ∀ c < splineDim qx (2 ^ M) r * splineDim qy (2 ^ M) r, ∀ s : ℝ × ℝ,
    0 ≤ s.1 → s.1 < 1 → 0 ≤ s.2 → s.2 < 1 →
    |∑ i ∈ range ((P + 1) * (P + 1)), T.at' (ro + (t.id a * ((P + 1) * (P + 1)) + i))
        (co + (pa * (splineDim qx (2 ^ M) r * splineDim qy (2 ^ M) r) + c)) * shape P i s -
      if t.patch a = pa then patchSpline qx qy (2 ^ M) r c ((t.llc a).1 + s.1 / 2 ^ M, (t.llc a).2 + s.2 / 2 ^ M) else 0| ≤ eps

end Bembel.Spec
