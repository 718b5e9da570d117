import Verif.Model.FunctionEvaluator
import Verif.Model.Quadrature
/-!
# Model of `LinearForm/*.hpp`, `LinearOperator/DiscreteLocalOperator.hpp`, `Identity/IdentityOperatorBase.hpp` and
`LaplaceBeltrami/LaplaceBeltramiOperatorBase.hpp`

Exact arithmetic.  `none` is an Eigen size mismatch or an access out of bounds.
-/

namespace Bembel
namespace LinearForm
open Mesh SuperSpace FunctionEval Basis

/-- A linear form: number of columns of `intval` and `evaluateIntegrand_impl` (for the present `intval`); `P` is the polynomial degree,
`junk` an uninitialised buffer. -/
structure Form (R : Type) where
  vd : Nat
  integrand : (junk : Nat → R) → (P : Nat) → SurfPt → (Nat → Nat → R) → (Nat → Nat → R)

variable {R : Type} [Field R] [Algebra ℝ R]

/-- `addScaledBasis`, SuperSpace.hpp l.302-305, on column 0 of `intval`. -/
def addScaledBasis (junk : Nat → R) (P : Nat) (intval : Nat → Nat → R) (w : R) (s : ℝ × ℝ) : Nat → Nat → R :=
  fun i j => if j = 0 then phiPhi junk P (fun i => intval i 0) w (conv R s) i else intval i j

/-- `DirichletTrace`, DirichletTrace.hpp l.37-66; `g` is `function_`. -/
noncomputable def dirichlet (g : V3 → R) : Form R where
  vd := 1
  integrand := fun junk P p intval =>
    addScaledBasis junk P intval (g p.f * algebraMap ℝ R ‖cross3 p.dx p.dy‖ * algebraMap ℝ R p.w) p.xi

/-- `NeumannTrace`, NeumannTrace.hpp l.39-69 (the normal is real, `dot` conjugates only its first argument). -/
noncomputable def neumann (g : V3 → Fin 3 → R) : Form R where
  vd := 1
  integrand := fun junk P p intval =>
    let n := cross3 p.dx p.dy
    addScaledBasis junk P intval ((∑ k, algebraMap ℝ R (n k) * g p.f k) * algebraMap ℝ R p.w) p.xi

/-- The last lines of both tangential traces, TangentialTrace.hpp l.64-80, RotatedTangentialTrace.hpp l.67-82; `tc` is
`tangential_component`. -/
noncomputable def addTangential (junk : Nat → R) (P : Nat) (p : SurfPt) (tc : Fin 3 → R) (intval : Nat → Nat → R) : Nat → Nat → R :=
  let cx := ∑ k, algebraMap ℝ R (p.dx k) * tc k
  let cy := ∑ k, algebraMap ℝ R (p.dy k) * tc k
  let phi := basis junk P p.xi
  fun i j => if i < (P + 1) * (P + 1) ∧ j < 2 then intval i j + (if j = 0 then cx * phi i else cy * phi i) else intval i j

/-- Eigen's `a.cross(b)` for `a` with scalars in `R` and a real vector `b`.  For complex scalars, Eigen up to version 3.4 conjugates every
component (documentation of `MatrixBase::cross`): `cj` is this conjugation, the identity for real scalars and for newer versions. -/
def crossE (cj : R → R) (a : Fin 3 → R) (b : V3) : Fin 3 → R :=
  ![cj (a 1 * algebraMap ℝ R (b 2) - a 2 * algebraMap ℝ R (b 1)), cj (a 2 * algebraMap ℝ R (b 0) - a 0 * algebraMap ℝ R (b 2)),
    cj (a 0 * algebraMap ℝ R (b 1) - a 1 * algebraMap ℝ R (b 0))]

/-- `TangentialTrace`, TangentialTrace.hpp l.38-81; `cj` as in `crossE`. -/
noncomputable def tangential (cj : R → R) (g : V3 → Fin 3 → R) : Form R where
  vd := 2
  integrand := fun junk P p intval =>
    let n := normalized (cross3 p.dx p.dy)
    addTangential junk P p (fun k => crossE cj (g p.f) n k * algebraMap ℝ R p.w) intval

/-- `RotatedTangentialTrace`, RotatedTangentialTrace.hpp l.39-83; `cj` is the conjugation of the scalar type (`dot` conjugates its
first argument). -/
noncomputable def rotatedTangential (cj : R → R) (g : V3 → Fin 3 → R) : Form R where
  vd := 2
  integrand := fun junk P p intval =>
    let n := normalized (cross3 p.dx p.dy)
    let fn := ∑ k, cj (g p.f k) * algebraMap ℝ R (n k)
    addTangential junk P p (fun k => (g p.f k - fn * algebraMap ℝ R (n k)) * algebraMap ℝ R p.w) intval

/-- The integrals of element `a`, DiscreteLinearForm.hpp l.66-71. -/
noncomputable def elementVec (junk : Nat → R) (form : Form R) (space : Space R) (Q : Cubature ℝ) (a : Addr) : Nat → Nat → R :=
  (List.range Q.size).foldl (fun intval i =>
    form.integrand junk space.P (map2surface space.t space.geo a (Q.xi i) (getH space.t a * Q.w i)) intval) (fun _ _ => 0)

/-- `compute`, DiscreteLinearForm.hpp l.44-83; `Q` is `GS[deg_]`. -/
noncomputable def compute (junk : Nat → R) (form : Form R) (space : Space R) (Q : Cubature ℝ) : Option (EMat R) := do
  let pp := (space.P + 1) * (space.P + 1)
  let els ← Mesh.elements space.t
  let D ← els.foldlM (fun (D : EMat R) a =>
    D.setBlock (pp * space.t.id a) 0 pp form.vd ⟨pp, form.vd, elementVec junk form space Q a⟩)
    ⟨pp * space.t.nElements, form.vd, fun _ _ => 0⟩
  let v ← D.reshape (D.rows * D.cols) 1
  space.trans.tr.mul v

end LinearForm

namespace LocalOperator
open Mesh SuperSpace FunctionEval

/-- A local operator: vector dimension and `evaluateIntegrand_impl` (real scalars; `M` is the refinement level of the super space). -/
structure Op where
  vd : Nat
  integrand : (junk : Nat → ℝ) → (P M : Nat) → SurfPt → SurfPt → (Nat → Nat → ℝ) → (Nat → Nat → ℝ)

/-- `IdentityOperatorBase`, Identity/IdentityOperatorBase.hpp l.27-51 (`MassMatrixScalarCont`, `MassMatrixScalarDisc`). -/
noncomputable def identity : Op where
  vd := 1
  integrand := fun junk P _ p1 _ intval => addScaledBasisInteraction junk P intval (‖cross3 p1.dx p1.dy‖ * p1.w) p1.xi p1.xi

/-- `LaplaceBeltramiOperatorBase`, LaplaceBeltrami/LaplaceBeltramiOperatorBase.hpp l.25-43. -/
noncomputable def laplaceBeltrami : Op where
  vd := 1
  integrand := fun junk P M p1 p2 intval =>
    let h : ℝ := 1 / 2 ^ M
    let kappa := ‖cross3 p1.dx p1.dy‖
    addScaledSurfaceGradientInteraction junk P intval (kappa * p1.w / (h * h)) p1 p2

/-- The local matrix of element `a`, DiscreteLocalOperator.hpp l.53-63. -/
noncomputable def elementMat (junk : Nat → ℝ) (op : Op) (space : Space ℝ) (Q : Cubature ℝ) (a : Addr) : Nat → Nat → ℝ :=
  (List.range Q.size).foldl (fun intval i =>
    let qp := map2surface space.t space.geo a (Q.xi i) (Q.w i)
    op.integrand junk space.P space.t.maxLevel qp qp intval) (fun _ _ => 0)

/-- The triplets (row, column, value) of element `a`, DiscreteLocalOperator.hpp l.65-77. -/
noncomputable def triplets (junk : Nat → ℝ) (op : Op) (space : Space ℝ) (Q : Cubature ℝ) (a : Addr) : List (Nat × Nat × ℝ) :=
  let pp := (space.P + 1) * (space.P + 1)
  let intval := elementMat junk op space Q a
  (List.range op.vd).flatMap fun i => (List.range op.vd).flatMap fun j => (List.range pp).flatMap fun ii => (List.range pp).map fun jj =>
    (pp * (j * space.t.nElements + space.t.id a) + jj, pp * (i * space.t.nElements + space.t.id a) + ii, intval (j * pp + jj) (i * pp + ii))

/-- `setFromTriplets` for an `n x n` matrix: values at the same position are added; an index out of range is an error. -/
def fromTriplets (n : Nat) (l : List (Nat × Nat × ℝ)) : Option (EMat ℝ) :=
  if l.all (fun x => decide (x.1 < n) && decide (x.2.1 < n)) then
    some ⟨n, n, fun i j => (l.map fun x => if x.1 = i ∧ x.2.1 = j then x.2.2 else 0).sum⟩
  else none

/-- `DiscreteLocalOperatorComputer::compute`, DiscreteLocalOperator.hpp l.24-87; `Q` is `GS[ffield_deg]`. -/
noncomputable def compute (junk : Nat → ℝ) (op : Op) (space : Space ℝ) (Q : Cubature ℝ) : Option (EMat ℝ) := do
  let pp := (space.P + 1) * (space.P + 1)
  let els ← Mesh.elements space.t
  let A ← fromTriplets (op.vd * pp * space.t.nElements) (els.flatMap (triplets junk op space Q))
  let AP ← A.mul space.trans
  space.trans.tr.mul AP

end LocalOperator
end Bembel
