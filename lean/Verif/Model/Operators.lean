import Mathlib.Analysis.Complex.Exponential
import Mathlib.Analysis.Real.Pi.Bounds
import Verif.Model.SurfacePoint
/-!
# Kernels and integrands of the boundary integral operators and potentials

`Laplace/*.hpp`, `Helmholtz/*.hpp`, `Maxwell/*.hpp`.  Exact arithmetic over `ℝ` resp. `ℂ`.  `BEMBEL_PI` is the real number pi.
The members `wavenumber_`, `wavenumber2_` are `k` and `k * k` (`set_wavenumber`, e.g. Helmholtz/HypersingularOperator.hpp l.134-137).
-/

namespace Bembel
namespace Kernel

open Complex

/-- `evaluateKernel`, Laplace/SingleLayerOperator.hpp l.115-118, Laplace/SingleLayerPotential.hpp l.77-80,
Laplace/HypersingularOperator.hpp l.114-117. -/
noncomputable def laplace (x y : V3) : ℝ := 1 / 4 / Real.pi / ‖x - y‖

/-- `evaluateKernelGrad`, Laplace/DoubleLayerOperator.hpp l.114-120. -/
noncomputable def laplaceDL (x y yn : V3) : ℝ :=
  let c := x - y
  let r := ‖c‖
  let r3 := r * r * r
  inner ℝ c yn / 4 / Real.pi / r3

/-- `evaluateKernelGrad`, Laplace/AdjointDoubleLayerOperator.hpp l.112-119. -/
noncomputable def laplaceADL (x xn y : V3) : ℝ :=
  let c := x - y
  let r := ‖c‖
  let r3 := r * r * r;
  -(inner ℝ c xn) / 4 / Real.pi / r3

/-- `evaluateKernelGrad`, Laplace/SingleLayerPotentialGradient.hpp l.73-79. -/
noncomputable def laplaceSLGrad (x y : V3) : V3 :=
  let c := x - y
  let r := ‖c‖
  let r3 := r * r * r
  (1 / Real.pi) • (1 / 4 : ℝ) • (1 / r3) • (-c)

/-- `evaluateKernelGrad`, Laplace/DoubleLayerPotential.hpp l.71-77. -/
noncomputable def laplaceDLGrad (x y : V3) : V3 :=
  let c := x - y
  let r := ‖c‖
  let r3 := r * r * r
  (1 / r3) • (1 / Real.pi) • (1 / 4 : ℝ) • c

/-- `evaluateKernel`, Helmholtz/SingleLayerOperator.hpp l.115-120, Helmholtz/SingleLayerPotential.hpp l.78-83,
Helmholtz/HypersingularOperator.hpp l.125-130, Maxwell/SingleLayerOperator.hpp l.125-130, Maxwell/SingleLayerPotential.hpp
l.81-86. -/
noncomputable def helmholtz (k : ℂ) (x y : V3) : ℂ :=
  let r := ‖x - y‖
  exp (-I * k * r) / 4 / Real.pi / r

/-- `evaluateKernelGrad`, Helmholtz/DoubleLayerOperator.hpp l.112-121, Helmholtz/DoubleLayerPotential.hpp l.71-80. -/
noncomputable def helmholtzDL (k : ℂ) (x y yn : V3) : ℂ :=
  let c := x - y
  let r := ‖c‖
  let r3 := r * r * r
  ((inner ℝ c yn : ℝ) : ℂ) * exp (-I * k * r) * (1 + I * k * r) / 4 / Real.pi / (r3 : ℝ)

/-- `evaluateKernelGrad`, Helmholtz/AdjointDoubleLayerOperator.hpp l.112-121. -/
noncomputable def helmholtzADL (k : ℂ) (x xn y : V3) : ℂ :=
  let c := x - y
  let r := ‖c‖
  let r3 := r * r * r
  ((-(inner ℝ c xn) : ℝ) : ℂ) * exp (-I * k * r) * (1 + I * k * r) / 4 / Real.pi / (r3 : ℝ)

/-- `evaluateKernelGrad`, Maxwell/SingleLayerPotential.hpp l.90-99; component `d` of the vector. -/
noncomputable def maxwellGrad (k : ℂ) (x y : V3) (d : Fin 3) : ℂ :=
  let c := x - y
  let r := ‖c‖
  let r3 := r * r * r
  (exp (-I * k * r) * (-1 - I * k * r) / 4 / Real.pi / (r3 : ℝ)) * (c d : ℂ)

end Kernel

/-- An operator: `OperatorOrder`, `NumberOfFMMComponents`, the vector dimension of its function space,
`evaluateIntegrand_impl` (for surface points `p1`, `p2` and the present `intval`) and `evaluateFMMInterpolation_impl`.
`P` is the polynomial degree, `M` the refinement level; `jr`, `junk` are uninitialised buffers. -/
structure Operator (R : Type) where
  order : Int
  nc : Nat
  vd : Nat
  integrand : (jr : Nat → ℝ) → (junk : Nat → R) → (P M : Nat) → SurfPt → SurfPt → (Nat → Nat → R) → (Nat → Nat → R)
  fmm : SurfPt → SurfPt → Nat → Nat → R

namespace Operator
open SuperSpace Kernel

/-- `LaplaceSingleLayerOperator`, Laplace/SingleLayerOperator.hpp l.23-31, l.45-110. -/
noncomputable def laplaceSL : Operator ℝ where
  order := -1
  nc := 1
  vd := 1
  integrand := fun _ junk P _ p1 p2 c =>
    let xk := ‖cross3 p1.dx p1.dy‖
    let yk := ‖cross3 p2.dx p2.dy‖
    addScaledBasisInteraction junk P c (laplace p1.f p2.f * xk * yk * p1.w * p2.w) p1.xi p2.xi
  fmm := fun p1 p2 _ _ =>
    let xk := ‖cross3 p1.dx p1.dy‖
    let yk := ‖cross3 p2.dx p2.dy‖
    laplace p1.f p2.f * xk * yk

/-- `LaplaceDoubleLayerOperator`, Laplace/DoubleLayerOperator.hpp l.21-29, l.41-109. -/
noncomputable def laplaceDL : Operator ℝ where
  order := 0
  nc := 1
  vd := 1
  integrand := fun _ junk P _ p1 p2 c =>
    let xk := ‖cross3 p1.dx p1.dy‖
    let yk := ‖cross3 p2.dx p2.dy‖
    let yn := normalized (cross3 p2.dx p2.dy)
    addScaledBasisInteraction junk P c (Kernel.laplaceDL p1.f p2.f yn * yk * xk * p1.w * p2.w) p1.xi p2.xi
  fmm := fun p1 p2 _ _ =>
    let xk := ‖cross3 p1.dx p1.dy‖
    let yn := cross3 p2.dx p2.dy
    Kernel.laplaceDL p1.f p2.f yn * xk

/-- `LaplaceAdjointDoubleLayerOperator`, Laplace/AdjointDoubleLayerOperator.hpp l.21-29, l.41-107. -/
noncomputable def laplaceADL : Operator ℝ where
  order := 0
  nc := 1
  vd := 1
  integrand := fun _ junk P _ p1 p2 c =>
    let xn := cross3 p1.dx p1.dy
    let yk := ‖cross3 p2.dx p2.dy‖
    addScaledBasisInteraction junk P c (Kernel.laplaceADL p1.f xn p2.f * yk * p1.w * p2.w) p1.xi p2.xi
  fmm := fun p1 p2 _ _ =>
    let xn := cross3 p1.dx p1.dy
    let yk := ‖cross3 p2.dx p2.dy‖
    Kernel.laplaceADL p1.f xn p2.f * yk

/-- `LaplaceHypersingularOperator`, Laplace/HypersingularOperator.hpp l.20-28, l.40-109. -/
noncomputable def laplaceHyp : Operator ℝ where
  order := 1
  nc := 2
  vd := 1
  integrand := fun jr _ P M p1 p2 c =>
    let xk := ‖cross3 p1.dx p1.dy‖
    let yk := ‖cross3 p2.dx p2.dy‖
    let h : ℝ := 1 / 2 ^ M
    addScaledSurfaceCurlInteraction jr P c (laplace p1.f p2.f * xk * yk * p1.w * p2.w / h / h) p1 p2
  fmm := fun p1 p2 a b =>
    let kernel := laplace p1.f p2.f
    match a, b with
    | 0, 0 => kernel * inner ℝ p1.dy p2.dy
    | 0, 1 => -kernel * inner ℝ p1.dy p2.dx
    | 1, 0 => -kernel * inner ℝ p1.dx p2.dy
    | 1, 1 => kernel * inner ℝ p1.dx p2.dx
    | _, _ => 0

/-- `HelmholtzSingleLayerOperator`, Helmholtz/SingleLayerOperator.hpp l.22-31, l.44-110. -/
noncomputable def helmholtzSL (k : ℂ) : Operator ℂ where
  order := -1
  nc := 1
  vd := 1
  integrand := fun _ junk P _ p1 p2 c =>
    let xk := ‖cross3 p1.dx p1.dy‖
    let yk := ‖cross3 p2.dx p2.dy‖
    addScaledBasisInteraction junk P c (helmholtz k p1.f p2.f * xk * yk * p1.w * p2.w) p1.xi p2.xi
  fmm := fun p1 p2 _ _ =>
    let xk := ‖cross3 p1.dx p1.dy‖
    let yk := ‖cross3 p2.dx p2.dy‖
    helmholtz k p1.f p2.f * xk * yk

/-- `HelmholtzDoubleLayerOperator`, Helmholtz/DoubleLayerOperator.hpp l.21-29, l.40-107. -/
noncomputable def helmholtzDL (k : ℂ) : Operator ℂ where
  order := 0
  nc := 1
  vd := 1
  integrand := fun _ junk P _ p1 p2 c =>
    let xk := ‖cross3 p1.dx p1.dy‖
    let yn := cross3 p2.dx p2.dy
    addScaledBasisInteraction junk P c (Kernel.helmholtzDL k p1.f p2.f yn * xk * p1.w * p2.w) p1.xi p2.xi
  fmm := fun p1 p2 _ _ =>
    let xk := ‖cross3 p1.dx p1.dy‖
    let yn := cross3 p2.dx p2.dy
    Kernel.helmholtzDL k p1.f p2.f yn * xk

/-- `HelmholtzAdjointDoubleLayerOperator`, Helmholtz/AdjointDoubleLayerOperator.hpp l.21-29, l.40-107. -/
noncomputable def helmholtzADL (k : ℂ) : Operator ℂ where
  order := 0
  nc := 1
  vd := 1
  integrand := fun _ junk P _ p1 p2 c =>
    let xn := cross3 p1.dx p1.dy
    let yk := ‖cross3 p2.dx p2.dy‖
    addScaledBasisInteraction junk P c (Kernel.helmholtzADL k p1.f xn p2.f * yk * p1.w * p2.w) p1.xi p2.xi
  fmm := fun p1 p2 _ _ =>
    let xn := cross3 p1.dx p1.dy
    let yk := ‖cross3 p2.dx p2.dy‖
    Kernel.helmholtzADL k p1.f xn p2.f * yk

/-- `HelmholtzHypersingularOperator`, Helmholtz/HypersingularOperator.hpp l.21-29, l.40-120. -/
noncomputable def helmholtzHyp (k : ℂ) : Operator ℂ where
  order := 1
  nc := 3
  vd := 1
  integrand := fun jr junk P M p1 p2 c =>
    let xn := cross3 p1.dx p1.dy
    let yn := cross3 p2.dx p2.dy
    let h : ℝ := 1 / 2 ^ M
    let kernel := helmholtz k p1.f p2.f
    let integrandScalar := -kernel * ((inner ℝ xn yn : ℝ) : ℂ) * (k * k) * p1.w * p2.w
    let integrandCurl := kernel * (‖xn‖ : ℝ) * (‖yn‖ : ℝ) * p1.w * p2.w / h / h
    let c := addScaledBasisInteraction junk P c integrandScalar p1.xi p2.xi
    addScaledSurfaceCurlInteraction jr P c integrandCurl p1 p2
  fmm := fun p1 p2 a b =>
    let xn := cross3 p1.dx p1.dy
    let yn := cross3 p2.dx p2.dy
    let kernel := helmholtz k p1.f p2.f
    match a, b with
    | 0, 0 => -kernel * (k * k) * ((inner ℝ xn yn : ℝ) : ℂ)
    | 1, 1 => kernel * ((inner ℝ p1.dy p2.dy : ℝ) : ℂ)
    | 1, 2 => -kernel * ((inner ℝ p1.dy p2.dx : ℝ) : ℂ)
    | 2, 1 => -kernel * ((inner ℝ p1.dx p2.dy : ℝ) : ℂ)
    | 2, 2 => kernel * ((inner ℝ p1.dx p2.dx : ℝ) : ℂ)
    | _, _ => 0

/-- `MaxwellSingleLayerOperator`, Maxwell/SingleLayerOperator.hpp l.22-31, l.44-120. -/
noncomputable def maxwellSL (k : ℂ) : Operator ℂ where
  order := -1
  nc := 2
  vd := 2
  integrand := fun _ junk P M p1 p2 c =>
    let h : ℝ := 1 / 2 ^ M
    let kernelEvaluation := helmholtz k p1.f p2.f * p1.w * p2.w
    let integrandDivergence := -kernelEvaluation / (k * k) / h / h
    let c := addScaledVectorBasisInteraction junk P c kernelEvaluation p1.xi p2.xi p1.dx p1.dy p2.dx p2.dy
    addScaledVectorBasisDivergenceInteraction junk P c integrandDivergence p1.xi p2.xi
  fmm := fun p1 p2 a b =>
    let kernel := helmholtz k p1.f p2.f
    match a, b with
    | 0, 0 => kernel * ((inner ℝ p1.dx p2.dx : ℝ) : ℂ)
    | 0, 2 => kernel * ((inner ℝ p1.dx p2.dy : ℝ) : ℂ)
    | 2, 0 => kernel * ((inner ℝ p1.dy p2.dx : ℝ) : ℂ)
    | 2, 2 => kernel * ((inner ℝ p1.dy p2.dy : ℝ) : ℂ)
    | 1, 1 => -kernel / (k * k)
    | 1, 3 => -kernel / (k * k)
    | 3, 1 => -kernel / (k * k)
    | 3, 3 => -kernel / (k * k)
    | _, _ => 0

end Operator
end Bembel
