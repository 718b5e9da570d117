import Verif.Spec.MomentOperators
import Verif.Spec.BlockCluster
/-! # Specification: entries of compressed blocks -/

namespace Bembel.Spec
open Finset Mesh H2

variable {R : Type} [CommRing R] [Algebra ℝ R]

/-- Tensor product Lagrange polynomial number `s` for the points `x` in one direction (second coordinate fastest). -/
noncomputable def lagrange2 (x : Nat → ℝ) (n s : Nat) (y : ℝ × ℝ) : ℝ := lagrange x n (s / n) y.1 * lagrange x n (s % n) y.2

/-- Interpolant of a function `f` of two points of the unit square, with `n` points in each of the four directions. -/
noncomputable def interpolate (x : Nat → ℝ) (n : Nat) (f : ℝ × ℝ → ℝ × ℝ → R) (y z : ℝ × ℝ) : R :=
  ∑ s ∈ range (n * n), ∑ s' ∈ range (n * n), algebraMap ℝ R (lagrange2 x n s y * lagrange2 x n s' z) *
    f (x (s / n), x (s % n)) (x (s' / n), x (s' % n))

/-- Tensor product quadrature over the unit square. -/
noncomputable def quadSquare (Q : Quad1 ℝ) (g : ℝ × ℝ → R) : R :=
  ∑ q ∈ range Q.size, ∑ q' ∈ range Q.size, algebraMap ℝ R (Q.w q * Q.w q') * g (Q.xi q, Q.xi q')

/-- Far field entry for shape function `r` in component `i` of element `a` of cluster `c1` and shape function `c` in component `j` of
element `b` of cluster `c2`: the quadrature over both elements of the test and trial functions `T` against the far field kernels of
the operator, which are replaced by their interpolants on the pair of clusters. -/
noncomputable def farEntry (t : Mesh.Tree ℝ) (op : Operator R) (surf : Addr → ℝ × ℝ → ℝ → SurfPt) (Q : Quad1 ℝ) (x : Nat → ℝ) (n : Nat)
    (T : (d a i : Nat) → ℝ × ℝ → ℝ) (c1 c2 a b : Addr) (i j r c : Nat) : R :=
  algebraMap ℝ R (getH t a * getH t b) * quadSquare Q fun ξ => quadSquare Q fun η =>
    ∑ α ∈ range op.nc, ∑ β ∈ range op.nc, algebraMap ℝ R (T i α r ξ * T j β c η) *
      interpolate x n (fun y z => op.fmm (surf c1 y 1) (surf c2 z 1) (i * op.nc + α) (j * op.nc + β))
        (inCluster t c1 a ξ) (inCluster t c2 b η)

/-- The far field kernels depend on the position and the tangents of the surface points only. -/
def PositionOnly (op : Operator R) : Prop :=
  ∀ (p1 p2 : SurfPt) (xi1 xi2 : ℝ × ℝ) (w1 w2 : ℝ) (a b : Nat),
    op.fmm { p1 with xi := xi1, w := w1 } { p2 with xi := xi2, w := w2 } a b = op.fmm p1 p2 a b

/-- Quadrature of the integrand of the operator over the elements `a` and `b`: the tensor product of the rule `Q` in the four
directions, as in the regular case of the dense assembly; entry `(k, l)` of the matrix of the pair. -/
noncomputable def directEntry (t : Mesh.Tree ℝ) (op : Operator R) (surf : Addr → ℝ × ℝ → ℝ → SurfPt) (Q : Quad1 ℝ) (P M : Nat)
    (jr : Nat → ℝ) (jk : Nat → R) (a b : Addr) (k l : Nat) : R :=
  ∑ q ∈ range Q.size, ∑ q' ∈ range Q.size, ∑ s ∈ range Q.size, ∑ s' ∈ range Q.size,
    op.integrand jr jk P M (surf a (Q.xi q, Q.xi q') (getH t a * (Q.w q * Q.w q')))
      (surf b (Q.xi s, Q.xi s') (getH t b * (Q.w s * Q.w s'))) (fun _ _ => 0) k l

end Bembel.Spec
