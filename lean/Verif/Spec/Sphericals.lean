import Verif.Model.SurfacePoint
import Mathlib.Algebra.Polynomial.Derivative
import Mathlib.Analysis.SpecialFunctions.Trigonometric.Basic
import Mathlib.Data.Nat.Factorial.Basic
import Mathlib.Data.Complex.BigOperators
import Mathlib.Order.Interval.Finset.Defs
import Mathlib.Data.Int.Interval
/-! # Specification: Legendre polynomials and spherical harmonics -/

namespace Bembel.Spec
open Polynomial

/-- The Legendre polynomial `P_n` by Rodrigues' formula. -/
noncomputable def legendre (n : Nat) : ℝ[X] := C (1 / (2 ^ n * n.factorial : ℝ)) * derivative^[n] ((X ^ 2 - 1) ^ n)

/-- The `m`-th derivative of the Legendre polynomial `P_n` at `t`. -/
noncomputable def legendreDeriv (n m : Nat) (t : ℝ) : ℝ := (derivative^[m] (legendre n)).eval t

/-- The norming factor `sqrt((2n+1)/(4 pi) (n-m)!/(n+m)!)`. -/
noncomputable def sphericalNorm (n m : Nat) : ℝ :=
  Real.sqrt ((2 * n + 1) / (4 * Real.pi) * ((n - m).factorial / (n + m).factorial))

/-- The spherical harmonic `Y_n^m` for `0 ≤ m`, as a polynomial in the coordinates:
`sqrt((2n+1)/(4 pi) (n-m)!/(n+m)!) (x_0 + i x_1)^m P_n^(m)(x_2)`.  On the unit sphere with `x = (sin θ cos φ, sin θ sin φ, cos θ)`
this is `sqrt(...) sin^m θ P_n^(m)(cos θ) e^(i m φ)`. -/
noncomputable def harmonicPos (n m : Nat) (x : V3) : ℂ :=
  (sphericalNorm n m * legendreDeriv n m (x 2) : ℝ) * (x 0 + x 1 * Complex.I) ^ m

/-- The spherical harmonic `Y_n^m`, with `Y_n^{-m}` the complex conjugate of `Y_n^m`. -/
noncomputable def harmonic (n : Nat) (m : Int) (x : V3) : ℂ :=
  if 0 ≤ m then harmonicPos n m.natAbs x else (starRingEnd ℂ) (harmonicPos n m.natAbs x)

/-- The weighted series of the harmonics of degree below `N`. -/
noncomputable def harmonicSeries (N : Nat) (w : Nat → ℝ) (c : Nat → Int → ℝ) (x : V3) : ℂ :=
  ∑ n ∈ Finset.range N, ∑ m ∈ Finset.Icc (-(n : Int)) n, ((w n * c n m : ℝ) : ℂ) * harmonic n m x

/-- The documented weight of degree `n`: `|x|^n`, and `n |x|^(n-1)` for the radial derivative. -/
noncomputable def solidWeight (grad : Bool) (norm : ℝ) (n : Nat) : ℝ := if grad then n * norm ^ ((n : Int) - 1) else norm ^ n

/-- The coefficient of degree `n` and order `m` in the documented ordering `(0,0), (1,-1), (1,0), (1,1), (2,-2), ...`. -/
def coefficient (cs : List ℝ) (n : Nat) (m : Int) : ℝ := cs.getD ((n : Int) * n + n + m).toNat 0

/-- The coefficients of the orders `m` and `-m` agree. -/
def SymmetricCoefficients (N : Nat) (cs : List ℝ) : Prop :=
  ∀ n < N, ∀ m : Int, -n ≤ m → m ≤ n → coefficient cs n (-m) = coefficient cs n m

end Bembel.Spec
