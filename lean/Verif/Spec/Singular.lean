import Mathlib.Analysis.Calculus.FDeriv.Basic
import Verif.Spec.Smooth
import Verif.Spec.Duffy
/-! # Specification: accuracy of all matrix entries on smooth surfaces -/

namespace Bembel.Spec
open scoped ContDiff
open Mesh H2 Util Duffy

/-- The patches are restrictions of smooth maps of the plane to the unit square, and the tangents are their partial derivatives. -/
def SmoothSurface (P : Nat) (geo : Nat → ℝ × ℝ → V3 × V3 × V3) : Prop :=
  ∀ p < P, ∃ g : ℝ × ℝ → V3, ContDiff ℝ ∞ g ∧ ∀ x, ClosedSquare x → geo p x = (g x, fderiv ℝ g x (1, 0), fderiv ℝ g x (0, 1))

/-- Different patches do not form cusps: if directions that point into the patches at a common point are mapped to the same tangent vector, then
they are directions along a common curve of the two patches. -/
def NoCusps (P : Nat) (geo : Nat → ℝ × ℝ → V3 × V3 × V3) : Prop :=
  ∀ p < P, ∀ q < P, p ≠ q → ∀ x y u v, ClosedSquare x → ClosedSquare y → ClosedSquare (x + u) → ClosedSquare (y + v) → (geo p x).1 = (geo q y).1 →
    u.1 • (geo p x).2.1 + u.2 • (geo p x).2.2 = v.1 • (geo q y).2.1 + v.2 • (geo q y).2.2 → (geo p (x + u)).1 = (geo q (y + v)).1

variable {R : Type} [RCLike R]

/-- The integrand of entry `(k, l)` of the pair of elements `a` and `b`, as a function of the two points of the reference square. -/
noncomputable def pairIntegrand (t : Mesh.Tree ℝ) (op : Operator R) (surf : Addr → ℝ × ℝ → ℝ → SurfPt) (p M : Nat)
    (jr : Nat → ℝ) (jk : Nat → R) (a b : Addr) (k l : Nat) (x : Props.PointPair) : R :=
  op.integrand jr jk p M (surf a x.1 (getH t a)) (surf b x.2 (getH t b)) (fun _ _ => 0) k l

/-- All entries that the library computes for the operator `op` are accurate on a smooth surface: for every polynomial degree `p` and power `κ`
there is a constant `C` such that for all pairs of elements, identical, adjacent or not, the integrand is integrable and the value computed with
rule number `i` of the library differs from the integral by at most `C / (i + 1) ^ κ`.

`es` is the eigenvalue solver that computes the Gauss rules with more than 20 points; `GS` is any table of rules that has rule number `i` at the
degree that the library selects for the pair, and `ffq` are the precomputed far field quadrature nodes. -/
def AllEntriesAccurate (es : EigenSolver) (op : Operator R) (t : Mesh.Tree ℝ) (B : Addr → Ball V3) (geo : Nat → ℝ × ℝ → V3 × V3 × V3)
    (P M : Nat) : Prop :=
  ∀ p κ : Nat, ∃ C, ∀ a b, IsNode P M a → IsNode P M b → ∀ (jr : Nat → ℝ) (jk : Nat → R),
    let surf := SuperSpace.map2surface t geo
    let n := op.vd * ((p + 1) * (p + 1))
    (∀ k < n, ∀ l < n, MeasureTheory.IntegrableOn (pairIntegrand t op surf p M jr jk a b k l) Props.Cube) ∧
    ∀ (GS : Nat → Cubature ℝ) (ffq : Addr → Nat → SurfPt),
      (∀ a, IsNode P M a → ∀ k < (GS (farfieldDegree op.order p).toNat).size, ffq a k =
        surf a ((GS (farfieldDegree op.order p).toNat).xi k) (getH t a * (GS (farfieldDegree op.order p).toNat).w k)) →
      let deg := pairDegree op.order p (compareElements t B a b).2 M
      deg < 50 → ∀ order i, i ≤ order → GS deg.toNat = gaussSquare es order i →
      ∃ v, evaluateBilinearForm op.order p t B (op.integrand jr jk p M) surf GS ffq a b = some v ∧
        ∀ k < n, ∀ l < n, ‖v k l - exactEntry t op surf p M jr jk a b k l‖ ≤ C / ((i : ℝ) + 1) ^ κ

end Bembel.Spec
