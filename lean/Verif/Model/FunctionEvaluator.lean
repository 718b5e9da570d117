import Mathlib.Algebra.Order.Floor.Defs
import Mathlib.Algebra.Order.Archimedean.Real.Basic
import Verif.Model.EMat
import Verif.Model.SurfacePoint
/-!
# Model of `AnsatzSpace/FunctionEvaluator.hpp` and `AnsatzSpace/FunctionEvaluatorEval.hpp`

Exact arithmetic (`ref_point / h` is exact in floating point arithmetic too, `h` being a power of two).  `none` is undefined behaviour:
an access out of bounds or an Eigen size mismatch.
-/

namespace Bembel
namespace FunctionEval
open Mesh SuperSpace Finset

variable {R : Type} [Field R] [Algebra ℝ R]

/-- What the evaluator uses of an ansatz space (AnsatzSpace.hpp l.119-156): the element tree of the mesh, the polynomial degree, the
geometry (`geo p s` are point and tangents of patch `p` at `s`) and the transformation matrix. -/
structure Space (R : Type) where
  t : Mesh.Tree ℝ
  P : Nat
  geo : Nat → ℝ × ℝ → V3 × V3 × V3
  trans : EMat R

/-- The member variables, FunctionEvaluator.hpp l.147-156; `reordSize` and `reord` are size and entries of `reordering_vector_`. -/
structure Evaluator (R : Type) where
  space : Space R
  fn : EMat R
  pp : Nat
  reordSize : Nat
  reord : Nat → Nat

/-- `set_function`, FunctionEvaluator.hpp l.131-142; `vd` is the vector dimension of the function space. -/
def setFunction (vd : Nat) (e : Evaluator R) (f : EMat R) : Option (Evaluator R) := do
  let longfun ← e.space.trans.mul f
  let fn ← longfun.reshape (longfun.rows / vd) vd
  some { e with fn := fn }

/-- `init_FunctionEvaluator(ansatz_space)`, FunctionEvaluator.hpp l.50-60, on an object `e`. -/
noncomputable def init (e : Evaluator R) (space : Space R) : Option (Evaluator R) := do
  let out ← Mesh.computeReorderingVector (fun x : ℝ => ⌊x⌋) space.t
  some { e with space := space, pp := (space.P + 1) * (space.P + 1), reordSize := space.t.nElements, reord := out }

/-- `init_FunctionEvaluator(ansatz_space, fun)`, FunctionEvaluator.hpp l.61-75, on an object `e`. -/
noncomputable def initWith (vd : Nat) (e : Evaluator R) (space : Space R) (f : EMat R) : Option (Evaluator R) := do
  let e ← setFunction vd { e with space := space } f
  let out ← Mesh.computeReorderingVector (fun x : ℝ => ⌊x⌋) space.t
  some { e with pp := (space.P + 1) * (space.P + 1), reordSize := space.t.nElements, reord := out }

/-- `operator=`, FunctionEvaluator.hpp l.29-35: the assigned object `e` after `e = other`. -/
def assign (e other : Evaluator R) : Evaluator R :=
  { e with space := other.space, fn := other.fn, pp := other.pp }

/-- `FunctionEvaluatorEval::eval` for continuous and discontinuous spaces, FunctionEvaluatorEval.hpp l.25-34, l.89-98: component `c`. -/
noncomputable def evalScalar (junk : Nat → R) (P : Nat) (h : ℝ) (p : SurfPt) (coeff : EMat R) (c : Nat) : R :=
  (∑ k ∈ range coeff.rows, coeff.at' k c * basis junk P p.xi k) / algebraMap ℝ R h

/-- `FunctionEvaluatorEval::eval` for div-conforming spaces, FunctionEvaluatorEval.hpp l.43-60: component `c`. -/
noncomputable def evalVector (junk : Nat → R) (P : Nat) (h : ℝ) (p : SurfPt) (coeff : EMat R) (c : Fin 3) : R :=
  let tang := fun d => ∑ k ∈ range coeff.rows, coeff.at' k d * basis junk P p.xi k
  (algebraMap ℝ R (p.dx c) * tang 0 + algebraMap ℝ R (p.dy c) * tang 1) / algebraMap ℝ R h

/-- `FunctionEvaluatorEval::evalDiv`, FunctionEvaluatorEval.hpp l.62-80 (the basis functions are real, thus the conjugation of the
first argument of `dot` has no effect). -/
noncomputable def evalDiv (junk : Nat → R) (P : Nat) (h : ℝ) (p : SurfPt) (coeff : EMat R) : R :=
  ((∑ k ∈ range coeff.rows, basisDx junk P p.xi k * coeff.at' k 0) + ∑ k ∈ range coeff.rows, basisDy junk P p.xi k * coeff.at' k 1) /
    algebraMap ℝ R h / algebraMap ℝ R h

/-- The block of coefficients of an element, FunctionEvaluator.hpp l.113-116. -/
def coeffs (vd : Nat) (e : Evaluator R) (a : Addr) : Option (EMat R) := e.fn.block (e.pp * e.space.t.id a) 0 e.pp vd

/-- `evaluate`, FunctionEvaluator.hpp l.109-117, for scalar functions. -/
noncomputable def evaluate (junk : Nat → R) (e : Evaluator R) (a : Addr) (p : SurfPt) : Option R :=
  (coeffs 1 e a).map fun c => evalScalar junk e.space.P (getH e.space.t a) p c 0

/-- `evaluate` for vector fields. -/
noncomputable def evaluateVector (junk : Nat → R) (e : Evaluator R) (a : Addr) (p : SurfPt) : Option (Fin 3 → R) :=
  (coeffs 2 e a).map fun c => evalVector junk e.space.P (getH e.space.t a) p c

/-- `evaluateDiv`, FunctionEvaluator.hpp l.118-127. -/
noncomputable def evaluateDiv (junk : Nat → R) (e : Evaluator R) (a : Addr) (p : SurfPt) : Option R :=
  (coeffs 2 e a).map fun c => evalDiv junk e.space.P (getH e.space.t a) p c

/-- The element found by `evaluateOnPatch`, FunctionEvaluator.hpp l.83-99. -/
noncomputable def elementOnPatch (e : Evaluator R) (patch : Nat) (x : ℝ × ℝ) : Option Addr := do
  let n : Int := 2 ^ e.space.t.maxLevel
  let h : ℝ := 1 / (n : ℝ)
  let xi := min (max ⌊x.1 / h⌋ 0) (n - 1)
  let yi := min (max ⌊x.2 / h⌋ 0) (n - 1)
  let tp := xi + n * yi + patch * (n * n)
  if 0 ≤ tp ∧ tp < e.reordSize then
    let els ← Mesh.elements e.space.t
    els[e.reord tp.toNat]?
  else none

/-- The surface point of `evaluateOnPatch`, FunctionEvaluator.hpp l.101-103. -/
noncomputable def pointOnPatch (e : Evaluator R) (patch : Nat) (x : ℝ × ℝ) (a : Addr) : SurfPt :=
  let g := e.space.geo patch x
  ⟨mapToReferenceElement e.space.t a x, 1, g.1, g.2.1, g.2.2⟩

/-- `evaluateOnPatch`, FunctionEvaluator.hpp l.82-105, for scalar functions. -/
noncomputable def evaluateOnPatch (junk : Nat → R) (e : Evaluator R) (patch : Nat) (x : ℝ × ℝ) : Option R := do
  let a ← elementOnPatch e patch x
  evaluate junk e a (pointOnPatch e patch x a)

/-- `evaluateOnPatch` for vector fields. -/
noncomputable def evaluateOnPatchVector (junk : Nat → R) (e : Evaluator R) (patch : Nat) (x : ℝ × ℝ) : Option (Fin 3 → R) := do
  let a ← elementOnPatch e patch x
  evaluateVector junk e a (pointOnPatch e patch x a)

end FunctionEval
end Bembel
