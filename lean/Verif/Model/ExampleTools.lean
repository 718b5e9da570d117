import Mathlib.Analysis.SpecialFunctions.Trigonometric.Inverse
import Mathlib.Analysis.SpecialFunctions.Log.Basic
import Verif.Model.SurfacePoint
import Verif.Model.EMat
/-!
# The evaluation grids and error measures of the examples: examples/Grids.hpp, examples/Error.hpp

Exact arithmetic.  A `VectorXd` is a list, a matrix with three columns is an `EMat` with `cols = 3`; `none` is a failed
assertion (undefined behaviour in builds without assertions).  Memory that is not initialised is the argument `junk`.
-/

namespace Bembel.ExampleTools

/-- `M.row(i) = v` for a matrix with three columns. -/
def setRow (M : EMat ℝ) (i : Nat) (v : V3) : Option (EMat ℝ) :=
  if i < M.rows ∧ M.cols = 3 then
    some ⟨M.rows, M.cols, fun a b => if a = i then (if h : b < 3 then v ⟨b, h⟩ else 0) else M.at' a b⟩
  else none

/-- `M.row(i).transpose()` as a `Vector3d`. -/
def getRow (M : EMat ℝ) (i : Nat) : Option V3 :=
  if i < M.rows ∧ M.cols = 3 then some (!₂[M.at' i 0, M.at' i 1, M.at' i 2]) else none

/-- `makeTensorProductGrid`, Grids.hpp l.20-34.  `VectorXd` has one column, hence the `max _ 1`. -/
def makeTensorProductGrid (junk : Nat → Nat → ℝ) (X Y Z : List ℝ) : Option (EMat ℝ) :=
  let maxX := max X.length 1
  let maxY := max Y.length 1
  let maxZ := max Z.length 1
  (List.range maxZ).foldlM (fun out iz =>
    (List.range maxY).foldlM (fun out iy =>
      (List.range maxX).foldlM (fun out ix => do
        let x ← X[ix]?
        let y ← Y[iy]?
        let z ← Z[iz]?
        setRow out (ix + iy * maxX + iz * maxY * maxX) !₂[x, y, z]) out) out) ⟨maxX * maxY * maxZ, 3, junk⟩

/-- `makeSphereGrid`, Grids.hpp l.36-49. -/
noncomputable def makeSphereGrid (junk : Nat → Nat → ℝ) (r : ℝ) (nSample : Nat) (center : V3) : Option (EMat ℝ) :=
  let goldenRatio := (1 + Real.sqrt 5) / 2
  (List.range nSample).foldlM (fun out (i : Nat) =>
    let phi := Real.arccos (1 - 2 * (i + 0.5) / nSample)
    let theta := 2 * Real.pi * (i + 0.5) / goldenRatio
    setRow out i (!₂[r * Real.cos theta * Real.sin phi, r * Real.sin theta * Real.sin phi, r * Real.cos phi] + center)) ⟨nSample, 3, junk⟩

variable {R : Type} [NormedField R]

/-- `M(i)` of a dynamic matrix: column-major linear index. -/
def linearGet (M : EMat R) (i : Nat) : Option R :=
  if i < M.rows * M.cols then some (M.at' (i % M.rows) (i / M.rows)) else none

/-- `errors` of a scalar potential, Error.hpp l.20-38; the loop overwrites all entries of the row vector `errors`. -/
noncomputable def errors (pot : EMat R) (grid : EMat ℝ) (f : V3 → R) : Option (List ℝ) :=
  if max pot.cols pot.rows = grid.rows ∧ grid.cols = 3 ∧ min pot.rows pot.cols ≠ 0 then
    (List.range grid.rows).mapM fun i => do
      let p ← linearGet pot i
      let x ← getRow grid i
      some ‖p - f x‖
  else none

/-- `errors` of a vector field, Error.hpp l.40-59; `M.col(i) - Vector3cd` requires three rows. -/
noncomputable def errorsField (pot : EMat ℂ) (grid : EMat ℝ) (f : V3 → ℂ → Fin 3 → ℂ) (kappa : ℂ) : Option (List ℝ) :=
  if max pot.cols pot.rows = grid.rows ∧ grid.cols = 3 ∧ pot.cols = 3 then
    (List.range grid.rows).mapM fun i => do
      let x ← getRow grid i
      if i < pot.cols ∧ pot.rows = 3 then
        some (Real.sqrt (∑ c : Fin 3, ‖pot.at' c i - f x kappa c‖ ^ 2))
      else none
  else none

open scoped Classical in
/-- `maxPointwiseError` of a scalar potential, Error.hpp l.61-80. -/
noncomputable def maxPointwiseError (pot : EMat R) (grid : EMat ℝ) (f : V3 → R) : Option ℝ :=
  if max pot.cols pot.rows = grid.rows ∧ grid.cols = 3 ∧ min pot.cols pot.rows = 1 then
    (List.range grid.rows).foldlM (fun error i => do
      let p ← linearGet pot i
      let x ← getRow grid i
      let tmp := ‖p - f x‖
      some (if tmp > error then tmp else error)) 0
  else none

open scoped Classical in
/-- `maxPointwiseError` of a vector field, Error.hpp l.82-100. -/
noncomputable def maxPointwiseErrorField (pot : EMat ℂ) (grid : EMat ℝ) (f : V3 → Fin 3 → ℂ) : Option ℝ :=
  if pot.cols = grid.cols ∧ max pot.cols pot.rows = grid.rows ∧ grid.cols = 3 ∧ pot.cols = 3 then
    (List.range grid.rows).foldlM (fun error i => do
      let x ← getRow grid i
      if i < pot.rows then
        let tmp := Real.sqrt (∑ c : Fin 3, ‖pot.at' i c - f x c‖ ^ 2)
        some (if tmp > error then tmp else error)
      else none) 0
  else none

/-- `A.colPivHouseholderQr().solve(b)` is not modelled; `solve` stands for it: a function of the `n` rows of `A` (two columns)
and of `b`. -/
abbrev Solver := (n : Nat) → (Fin n → Fin 2 → ℝ) → (Fin n → ℝ) → (Fin 2 → ℝ)

/-- `estimateRateOfConvergence`, Error.hpp l.102-109; `VectorXd::LinSpaced(n, 0, n - 1)` has the entries `i`. -/
noncomputable def estimateRateOfConvergence (solve : Solver) (errors : List ℝ) : ℝ :=
  let n := errors.length
  let A : Fin n → Fin 2 → ℝ := fun i => ![1, i]
  let b : Fin n → ℝ := fun i => Real.log |errors.get i| / Real.log 2
  let x := solve n A b
  (-x 1)

open scoped Classical in
/-- `checkRateOfConvergence`, Error.hpp l.111-119: return value and the value stored in `rate_of_convergence_out`. -/
noncomputable def checkRateOfConvergence (solve : Solver) (errors : List ℝ) (expected_rate : Int) (tol_factor : ℝ) : Bool × ℝ :=
  let rate_of_convergence := estimateRateOfConvergence solve errors
  (decide (rate_of_convergence > tol_factor * expected_rate), rate_of_convergence)

end Bembel.ExampleTools
