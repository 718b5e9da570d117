import Verif.Model.Omp
import Verif.Model.Quadrature
import Verif.Model.Operators
import Verif.Model.FunctionEvaluator
import Mathlib.Algebra.Group.Pi.Basic
/-!
# Model of `Potential/DiscretePotential.hpp` and of the integrands of all potentials

Exact arithmetic.  The matrix `potential` has one row per point and one column per component of the output space.  The density is given by
a `FunctionEvaluator`.
-/

namespace Bembel
namespace Potential
open Mesh SuperSpace FunctionEval

/-- A potential: `OutputSpaceDimension` and `evaluateIntegrand_impl` for element, point and surface point; component `k`. -/
structure Pot (R : Type) where
  od : Nat
  integrand : (junk : Nat → R) → Evaluator R → Addr → V3 → SurfPt → Option (Nat → R)

section laplace
variable {R : Type} [Field R] [Algebra ℝ R]

/-- `LaplaceSingleLayerPotential`, Laplace/SingleLayerPotential.hpp l.44-72 (and HomogenisedLaplace/SingleLayerPotential.hpp l.52-82 with
another kernel). -/
noncomputable def singleLayerReal (kernel : V3 → V3 → ℝ) : Pot R where
  od := 1
  integrand := fun junk e a x p => do
    let u ← evaluate junk e a p
    some fun _ => algebraMap ℝ R (kernel x p.f) * u * algebraMap ℝ R ‖cross3 p.dx p.dy‖ * algebraMap ℝ R p.w

/-- `LaplaceDoubleLayerPotential`, Laplace/DoubleLayerPotential.hpp l.40-66. -/
noncomputable def laplaceDL : Pot R where
  od := 1
  integrand := fun junk e a x p => do
    let u ← evaluate junk e a p
    some fun _ => algebraMap ℝ R (inner ℝ (Kernel.laplaceDLGrad x p.f) (cross3 p.dx p.dy)) * u * algebraMap ℝ R p.w

open scoped Classical in
/-- `LaplaceSingleLayerPotentialGradient`, Laplace/SingleLayerPotentialGradient.hpp l.40-68. -/
noncomputable def laplaceSLGrad : Pot R where
  od := 3
  integrand := fun junk e a x p => do
    let u ← evaluate junk e a p
    some fun k => if hk : k < 3 then
      algebraMap ℝ R (Kernel.laplaceSLGrad x p.f ⟨k, hk⟩) * u * algebraMap ℝ R ‖cross3 p.dx p.dy‖ * algebraMap ℝ R p.w else 0

end laplace

/-- `HelmholtzSingleLayerPotential`, Helmholtz/SingleLayerPotential.hpp l.45-73. -/
noncomputable def helmholtzSL (k : ℂ) : Pot ℂ where
  od := 1
  integrand := fun junk e a x p => do
    let u ← evaluate junk e a p
    some fun _ => Kernel.helmholtz k x p.f * u * (‖cross3 p.dx p.dy‖ : ℂ) * (p.w : ℂ)

/-- `HelmholtzDoubleLayerPotential`, Helmholtz/DoubleLayerPotential.hpp l.40-66. -/
noncomputable def helmholtzDL (k : ℂ) : Pot ℂ where
  od := 1
  integrand := fun junk e a x p => do
    let u ← evaluate junk e a p
    some fun _ => Kernel.helmholtzDL k x p.f (cross3 p.dx p.dy) * u * (p.w : ℂ)

/-- `MaxwellSingleLayerPotential`, Maxwell/SingleLayerPotential.hpp l.44-76; `wavenumber2_` is `k * k`. -/
noncomputable def maxwellSL (k : ℂ) : Pot ℂ where
  od := 3
  integrand := fun junk e a x p => do
    let u ← evaluateVector junk e a p
    let dv ← evaluateDiv junk e a p
    some fun c => if hc : c < 3 then
      (Kernel.helmholtz k x p.f * u ⟨c, hc⟩ + 1 / (k * k) * Kernel.maxwellGrad k x p.f ⟨c, hc⟩ * dv) * (p.w : ℂ) else 0

variable {R : Type} [Field R] [Algebra ℝ R]

/-- Body of the `single` construct of element `a`, DiscretePotential.hpp l.91-100; `points` are the `n` evaluation points, `my` is
`my_potential`. -/
noncomputable def elementBody (junk : Nat → R) (pot : Pot R) (e : Evaluator R) (Q : Cubature ℝ) {n : Nat} (points : Fin n → V3)
    (a : Addr) (my : Fin n → Fin pot.od → R) : Option (Fin n → Fin pot.od → R) :=
  (List.range Q.size).foldlM (fun my j =>
    let h := getH e.space.t a
    let qp := map2surface e.space.t e.space.geo a (Q.xi j) (h * h * Q.w j)
    (List.finRange n).foldlM (fun my i => do
      let v ← pot.integrand junk e a (points i) qp
      some (Function.update my i fun k => my i k + v k)) my) my

/-- The parallel region, DiscretePotential.hpp l.76-105; `els` are the elements in the order of the iteration. -/
noncomputable def region (junk : Nat → R) (pot : Pot R) (e : Evaluator R) (Q : Cubature ℝ) {n : Nat} (points : Fin n → V3)
    (els : List Addr) : Omp.Region (Fin n → Fin pot.od → R) (Fin n → Fin pot.od → R) where
  n := els.length
  init := fun _ _ => 0
  body := fun i my => do
    let a ← els[i]?
    elementBody junk pot e Q points a my
  fin := fun my => some my

/-- `evaluate`, DiscretePotential.hpp l.49-107, for a schedule of the parallel region. -/
noncomputable def evaluate (junk : Nat → R) (pot : Pot R) (e : Evaluator R) (Q : Cubature ℝ) {n : Nat} (points : Fin n → V3)
    {T : Nat} (sched : List (Fin T)) : Option (Fin n → Fin pot.od → R) := do
  let els ← Mesh.elements e.space.t
  Omp.exec (region junk pot e Q points els) (fun _ _ => 0) sched

end Potential
end Bembel
