import Mathlib.Analysis.Calculus.Deriv.Basic
import Verif.Spec.Bernstein
import Verif.Model.Operators
/-!
# Specification: shape functions on the unit square, and what an operator adds to a matrix entry
-/

namespace Bembel.Spec
open Finset

/-- Tensor product Bernstein polynomial number `i` of degree `P`: the first coordinate runs fastest. -/
noncomputable def shape (P i : Nat) (s : ℝ × ℝ) : ℝ := bern P (i % (P + 1)) s.1 * bern P (i / (P + 1)) s.2

/-- Partial derivative in the first coordinate. -/
noncomputable def shapeDx (P i : Nat) (s : ℝ × ℝ) : ℝ := deriv (fun x => shape P i (x, s.2)) s.1

/-- Partial derivative in the second coordinate. -/
noncomputable def shapeDy (P i : Nat) (s : ℝ × ℝ) : ℝ := deriv (fun y => shape P i (s.1, y)) s.2

/-- The surface is regular at the point: the tangents are linearly independent. -/
def Regular (p : SurfPt) : Prop := cross3 p.dx p.dy ≠ 0

variable {R : Type} [CommRing R] [Algebra ℝ R]

/-- `op` adds to entry `(d n + i, e n + j)`, `n = (P+1)^2`, of the block of a pair of elements exactly
`w1 w2 ∑ a b, fmm (d, a) (e, b) * T d a i (s) * T e b j (t)`: the values `fmm` used by the interpolated far field, contracted with
the test and trial functions `T P M d a i` (component `d` of the ansatz function, far field component `a`, shape function `i`).
All other entries are unchanged. -/
def Contracts (op : Operator R) (T : (P M d a i : Nat) → ℝ × ℝ → ℝ) : Prop :=
  ∀ (jr : Nat → ℝ) (junk : Nat → R) (P M : Nat) (p1 p2 : SurfPt) (c : Nat → Nat → R), Regular p1 → Regular p2 →
    let n := (P + 1) * (P + 1)
    (∀ d < op.vd, ∀ e < op.vd, ∀ i < n, ∀ j < n,
      op.integrand jr junk P M p1 p2 c (d * n + i) (e * n + j) = c (d * n + i) (e * n + j) +
        algebraMap ℝ R (p1.w * p2.w) * ∑ a ∈ range op.nc, ∑ b ∈ range op.nc,
          op.fmm p1 p2 (d * op.nc + a) (e * op.nc + b) *
            algebraMap ℝ R (T P M d a i p1.xi * T P M e b j p2.xi)) ∧
    ∀ i j, ¬ (i < op.vd * n ∧ j < op.vd * n) → op.integrand jr junk P M p1 p2 c i j = c i j

/-- `op'` is the adjoint of `op`: same order and dimensions, and exchanged arguments of the far field kernels; these depend on point
and tangents only. -/
structure Adjoint (op op' : Operator R) : Prop where
  order : op'.order = op.order
  nc : op'.nc = op.nc
  vd : op'.vd = op.vd
  fmm : ∀ p1 p2 a b, op'.fmm p2 p1 b a = op.fmm p1 p2 a b
  weightFree : ∀ (p1 p2 : SurfPt) (w1 w2 : ℝ) (a b), op.fmm { p1 with w := w1 } { p2 with w := w2 } a b = op.fmm p1 p2 a b

/-- Single and double layer operators: the shape functions. -/
noncomputable def valueT (P _M _d _a i : Nat) : ℝ × ℝ → ℝ := shape P i

/-- Laplace hypersingular operator: the partial derivatives on the element, with respect to patch coordinates. -/
noncomputable def gradT (P M _d a i : Nat) (s : ℝ × ℝ) : ℝ :=
  if a = 0 then 2 ^ M * shapeDx P i s else 2 ^ M * shapeDy P i s

/-- Helmholtz hypersingular operator: value and both partial derivatives. -/
noncomputable def valueGradT (P M _d a i : Nat) (s : ℝ × ℝ) : ℝ :=
  if a = 0 then shape P i s else if a = 1 then 2 ^ M * shapeDx P i s else 2 ^ M * shapeDy P i s

/-- Maxwell single layer operator: value and divergence of the vector field that has the shape function as component `d`. -/
noncomputable def divT (P M d a i : Nat) (s : ℝ × ℝ) : ℝ :=
  if a = 0 then shape P i s else if d = 0 then 2 ^ M * shapeDx P i s else 2 ^ M * shapeDy P i s

end Bembel.Spec
