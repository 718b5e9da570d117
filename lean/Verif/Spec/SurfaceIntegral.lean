import Mathlib.Analysis.RCLike.Basic
import Mathlib.MeasureTheory.Integral.IntervalIntegral.Basic
import Verif.Spec.Smooth
import Verif.Spec.LinearForm
import Verif.Model.DiscretePotential
import Verif.Model.LinearForm
/-! # Specification: integrals over the surface, accuracy of potentials -/

namespace Bembel.Spec
open Mesh FunctionEval Potential

variable {R : Type} [RCLike R]

/-- The integral of `g` over all elements of a list, in the parameter domain of the patches: `surfaceQuad` with an exact quadrature. -/
noncomputable def surfaceIntegral (t : Mesh.Tree ℝ) (geo : Nat → ℝ × ℝ → V3 × V3 × V3) (els : List Addr) (g : Addr → SurfPt → R) : R :=
  (els.map fun a => algebraMap ℝ R (getH t a ^ 2) * ∫ x in (0 : ℝ)..1, ∫ y in (0 : ℝ)..1, g a (elementPoint t geo a (x, y))).sum

/-- The points of `K` are not on the surface. -/
def OffSurface (K : Set V3) (P : Nat) (geo : Nat → ℝ × ℝ → V3 × V3 × V3) : Prop := ∀ p < P, ∀ s, ClosedSquare s → (geo p s).1 ∉ K

/-- The library evaluates the potential `pot` accurately at the points of the set `K`: for every vector `f` of degrees of freedom and every power
`κ` there is a constant `C` such that for all evaluation points in `K`, all schedules of the threads and every Gauss rule `i` the computed
values differ from the surface integral of `density f x` by at most `C / (i + 1) ^ κ`. -/
def PotentialAccurate (es : EigenSolver) (vd : Nat) (space : Space R) (pot : Pot R) (density : EMat R → V3 → Addr → SurfPt → Fin pot.od → R)
    (K : Set V3) : Prop :=
  ∀ (e0 : Evaluator R) (f : EMat R), f.rows = space.trans.cols → f.cols = 1 → ∀ junk : Nat → R,
    ∃ e els, initWith vd e0 space f = some e ∧ elements space.t = some els ∧ ∀ κ : Nat, ∃ C, ∀ order i, i ≤ order →
      ∀ (n : Nat) (x : Fin n → V3), (∀ j, x j ∈ K) → ∀ S : Omp.Schedule space.t.nElements,
        ∃ v, Potential.evaluate junk pot e (gaussSquare es order i) x S.sched = some v ∧ ∀ j k,
          ‖v j k - surfaceIntegral space.t space.geo els fun a p => density f (x j) a p k‖ ≤ C / ((i : ℝ) + 1) ^ κ

/-- The data `u` of a boundary value problem is smooth near every point of the surface. -/
def SmoothData {E : Type} [NormedAddCommGroup E] [NormedSpace ℝ E] (P : Nat) (geo : Nat → ℝ × ℝ → V3 × V3 × V3) (u : V3 → E) : Prop :=
  ∀ p < P, ∀ s, ClosedSquare s → ContDiffAt ℝ (⊤ : ℕ∞) u (geo p s).1

/-- The library computes the load vector `form` accurately: the entry of every ansatz function (test function) `c` differs from the surface
integral of `density c` by at most `C / (i + 1) ^ κ` if Gauss rule `i` is used. -/
def LoadAccurate (es : EigenSolver) (space : Space R) (form : LinearForm.Form R) (density : EMat R → Addr → SurfPt → R) : Prop :=
  ∃ els, elements space.t = some els ∧ ∀ κ : Nat, ∃ C, ∀ order i, i ≤ order → ∀ junk : Nat → R,
    ∃ v, LinearForm.compute junk form space (gaussSquare es order i) = some v ∧ v.rows = space.trans.cols ∧ v.cols = 1 ∧
      ∀ c < space.trans.cols,
        ‖v.at' c 0 - surfaceIntegral space.t space.geo els (density (unitVec space.trans.cols c))‖ ≤ C / ((i : ℝ) + 1) ^ κ

/-- The library computes the matrix of the local operator `op` accurately. -/
def MatrixAccurate (es : EigenSolver) (space : Space ℝ) (op : LocalOperator.Op) (density : Nat → Nat → Addr → SurfPt → ℝ) : Prop :=
  ∃ els, elements space.t = some els ∧ ∀ κ : Nat, ∃ C, ∀ order i, i ≤ order → ∀ junk : Nat → ℝ,
    ∃ A, LocalOperator.compute junk op space (gaussSquare es order i) = some A ∧ A.rows = space.trans.cols ∧ A.cols = space.trans.cols ∧
      ∀ c < space.trans.cols, ∀ d < space.trans.cols,
        |A.at' c d - surfaceIntegral space.t space.geo els (density c d)| ≤ C / ((i : ℝ) + 1) ^ κ

end Bembel.Spec
