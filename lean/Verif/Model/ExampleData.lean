import Mathlib.Analysis.SpecialFunctions.Complex.Circle
import Verif.Model.SurfacePoint
/-!
# The reference solutions of examples/Data.hpp

Exact arithmetic; `Eigen::Vector3cd` is `Fin 3 → ℂ`.
-/

namespace Bembel.ExampleData
open Complex

/-- `HarmonicFunction`, examples/Data.hpp l.24-26. -/
def harmonicFunction (x : V3) : ℝ := 4 * x 0 * x 0 - 3 * x 1 * x 1 - x 2 * x 2

/-- `HarmonicFunctionGrad`, examples/Data.hpp l.31-33. -/
def harmonicFunctionGrad (x : V3) : V3 := !₂[8 * x 0, -6 * x 1, -2 * x 2]

/-- `HelmholtzFundamentalSolution`, examples/Data.hpp l.42-49. -/
noncomputable def helmholtzFundamentalSolution (pt : V3) (kappa : ℂ) (center : V3) : ℂ :=
  let c := pt - center
  let r := ‖c‖
  exp (-I * kappa * r) / r

/-- `HelmholtzFundamentalSolutionGrad`, examples/Data.hpp l.58-66. -/
noncomputable def helmholtzFundamentalSolutionGrad (pt : V3) (kappa : ℂ) (center : V3) : Fin 3 → ℂ :=
  let c := pt - center
  let r := ‖c‖
  let r3 := r * r * r
  fun m => ((-c) m : ℝ) * exp (-I * kappa * r) * (1 + I * kappa * r) / (r3 : ℝ)

/-- `Dipole`, examples/Data.hpp l.76-90. -/
noncomputable def dipole (pt : V3) (kappa : ℂ) (position length : V3) : Fin 3 → ℂ :=
  let c := pt - position
  let r := ‖c‖
  let n := (1 / r) • c
  let expc := exp (-I * kappa * r)
  let E : Fin 3 → ℂ := fun m => kappa * kappa * expc / r * ((cross3 (cross3 n length) n) m : ℝ)
  let h := (3 * inner ℝ n length) • n - length
  let ec := (1 / ((r : ℂ) * r * r) - I * (-kappa) / ((r : ℂ) * r)) * expc
  fun m => E m + ec * (h m : ℝ)

end Bembel.ExampleData
