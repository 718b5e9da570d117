import Mathlib.LinearAlgebra.Matrix.Determinant.Basic
import Verif.Model.Operators
import Verif.Model.FunctionEvaluator
/-!
# Rigid motions of space

A motion is a rotation about the origin (orthogonal matrix of determinant 1) followed by a translation.  Moving a surface moves its points
and rotates its tangents.
-/

namespace Bembel.Spec
open Matrix

/-- `x ↦ Q x + b` with `Qᵀ Q = 1`, `det Q = 1`. -/
structure Motion where
  Q : Matrix (Fin 3) (Fin 3) ℝ
  b : V3
  orth : Qᵀ * Q = 1
  det : Q.det = 1

namespace Motion

/-- Image of a vector (difference of points). -/
noncomputable def rot (m : Motion) (v : V3) : V3 := WithLp.toLp 2 fun k => ∑ l, m.Q k l * v l

/-- Image of a point. -/
noncomputable def pos (m : Motion) (x : V3) : V3 := m.rot x + m.b

/-- The moved parametrisation of a patch: points and the two tangents. -/
noncomputable def geometry (m : Motion) (geo : Nat → ℝ × ℝ → V3 × V3 × V3) : Nat → ℝ × ℝ → V3 × V3 × V3 :=
  fun p s => (m.pos (geo p s).1, m.rot (geo p s).2.1, m.rot (geo p s).2.2)

/-- The moved surface point. -/
noncomputable def point (m : Motion) (p : SurfPt) : SurfPt := ⟨p.xi, p.w, m.pos p.f, m.rot p.dx, m.rot p.dy⟩

/-- The space on the moved surface. -/
noncomputable def space {R : Type} (m : Motion) (s : FunctionEval.Space R) : FunctionEval.Space R := { s with geo := m.geometry s.geo }

/-- The function with the same coefficients on the moved surface. -/
noncomputable def evaluator {R : Type} (m : Motion) (e : FunctionEval.Evaluator R) : FunctionEval.Evaluator R := { e with space := m.space e.space }

/-- Integrand and far field kernel are the same for moved points. -/
def Invariant {R : Type} (m : Motion) (op : Operator R) : Prop :=
  (∀ jr junk P M p q c, op.integrand jr junk P M (m.point p) (m.point q) c = op.integrand jr junk P M p q c) ∧
  ∀ p q, op.fmm (m.point p) (m.point q) = op.fmm p q

end Motion
end Bembel.Spec
