import Mathlib.Analysis.InnerProductSpace.PiL2
import Mathlib.Analysis.Calculus.FDeriv.Basic
import Mathlib.Analysis.Complex.Basic
import Mathlib.LinearAlgebra.CrossProduct
/-!
# Specification: first order differential operators on `ℝ³`

Written with Mathlib's derivative; for complex valued functions of a real point.
-/

namespace Bembel.Spec

/-- The partial derivative `∂f/∂x_j` at `x`. -/
noncomputable def pderiv (j : Fin 3) (f : EuclideanSpace ℝ (Fin 3) → ℂ) (x : EuclideanSpace ℝ (Fin 3)) : ℂ :=
  fderiv ℝ f x (EuclideanSpace.single j 1)

/-- `grad f`. -/
noncomputable def grad (f : EuclideanSpace ℝ (Fin 3) → ℂ) (x : EuclideanSpace ℝ (Fin 3)) : Fin 3 → ℂ :=
  fun j => pderiv j f x

/-- `div F`. -/
noncomputable def div (F : EuclideanSpace ℝ (Fin 3) → Fin 3 → ℂ) (x : EuclideanSpace ℝ (Fin 3)) : ℂ :=
  pderiv 0 (fun z => F z 0) x + pderiv 1 (fun z => F z 1) x + pderiv 2 (fun z => F z 2) x

/-- `curl F`. -/
noncomputable def curl (F : EuclideanSpace ℝ (Fin 3) → Fin 3 → ℂ) (x : EuclideanSpace ℝ (Fin 3)) : Fin 3 → ℂ :=
  ![pderiv 1 (fun z => F z 2) x - pderiv 2 (fun z => F z 1) x,
    pderiv 2 (fun z => F z 0) x - pderiv 0 (fun z => F z 2) x,
    pderiv 0 (fun z => F z 1) x - pderiv 1 (fun z => F z 0) x]

end Bembel.Spec
