import Verif.Spec.Sphericals
import Mathlib.Analysis.InnerProductSpace.PiL2
import Mathlib.Analysis.Calculus.FDeriv.Basic
/-! # Specification: the kernel of the homogenised Laplace problem -/

namespace Bembel.Spec
open Finset

/-- The centres `{-1, 0, 1}³`. -/
noncomputable def centres : Finset (Int × Int × Int) := Icc (-1) 1 ×ˢ Icc (-1) 1 ×ˢ Icc (-1) 1

/-- A triple of integers as a point. -/
noncomputable def latticePoint (m : Int × Int × Int) : V3 := !₂[(m.1 : ℝ), (m.2.1 : ℝ), (m.2.2 : ℝ)]

/-- The documented modified kernel `sum_{m in {-1,0,1}³} 1/(4 pi |x-m|) + |x|²/6`. -/
noncomputable def modifiedKernel (x : V3) : ℝ :=
  ∑ m ∈ centres, 1 / (4 * Real.pi * ‖x - latticePoint m‖) + ‖x‖ ^ 2 / 6

/-- The point is none of the 27 centres. -/
def OffCentres (x : V3) : Prop := ∀ m ∈ centres, x ≠ latticePoint m

/-- The solid harmonics expansion `sum_{n ≤ N} sum_{m = -n}^n c_n^m |x|^n Y_n^m(x/|x|)` (real part). -/
noncomputable def solidExpansion (N : Nat) (c : Nat → Int → ℝ) (x : V3) : ℝ :=
  ∑ n ∈ range (N + 1), ∑ m ∈ Icc (-(n : Int)) n, c n m * (‖x‖ ^ n * (harmonic n m ((1 / ‖x‖) • x)).re)

/-- The documented kernel with an expansion of degree `N`. -/
noncomputable def expandedKernel (N : Nat) (c : Nat → Int → ℝ) (x : V3) : ℝ := modifiedKernel x + solidExpansion N c x

/-- Coefficients equal for the orders `m` and `-m`, up to degree `N`. -/
def SymmetricUpTo (N : Nat) (c : Nat → Int → ℝ) : Prop := ∀ n ≤ N, ∀ m : Int, -n ≤ m → m ≤ n → c n (-m) = c n m

/-- The point with coordinates `u` on the face `{x_f = -1/2}` of the unit cube around the origin. -/
noncomputable def cubeFace (f : Fin 3) (u : ℝ × ℝ) : V3 :=
  match f with
  | 0 => !₂[-1 / 2, u.1 - 1 / 2, u.2 - 1 / 2]
  | 1 => !₂[u.1 - 1 / 2, -1 / 2, u.2 - 1 / 2]
  | 2 => !₂[u.1 - 1 / 2, u.2 - 1 / 2, -1 / 2]

/-- The `f`-th unit vector. -/
noncomputable def axis (f : Fin 3) : V3 := EuclideanSpace.single f 1

/-- The periodicity error of `F`: the squared jumps of the values and of the normal derivatives between opposite points of the faces
of the unit cube, summed over the points `u k`, `k < n`, of each face. -/
noncomputable def periodicityError (n : Nat) (u : Nat → ℝ × ℝ) (F : V3 → ℝ) : ℝ :=
  ∑ f : Fin 3, ∑ k ∈ range n, ((F (cubeFace f (u k)) - F (cubeFace f (u k) + axis f)) ^ 2 +
    (fderiv ℝ F (cubeFace f (u k)) (axis f) - fderiv ℝ F (cubeFace f (u k) + axis f) (axis f)) ^ 2)

/-- A solution of a linear least squares problem. -/
def LeastSquares (rows cols : Nat) (A : Nat → Nat → ℝ) (b s : Nat → ℝ) : Prop :=
  ∀ c : Nat → ℝ, ∑ i ∈ range rows, (∑ j ∈ range cols, A i j * s j - b i) ^ 2 ≤ ∑ i ∈ range rows, (∑ j ∈ range cols, A i j * c j - b i) ^ 2

end Bembel.Spec
