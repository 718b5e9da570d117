import Mathlib.Analysis.Calculus.ContDiff.Defs
import Mathlib.Analysis.InnerProductSpace.PiL2
import Mathlib.MeasureTheory.Integral.IntervalIntegral.Basic
import Verif.Spec.Square
import Verif.Spec.H2Init
import Verif.Spec.Mesh
import Verif.Model.H2Multipole
import Verif.Model.Moments
import Verif.Model.Quadrature
/-! # Specification: smooth functions on the closed unit square -/

namespace Bembel.Spec
open scoped ContDiff

variable {E : Type} [NormedAddCommGroup E] [NormedSpace ℝ E]

/-- `f` is the restriction to the closed unit square of a function that is infinitely often differentiable at every point of the square. -/
def SmoothSquare (f : ℝ × ℝ → E) : Prop :=
  ∃ g : ℝ × ℝ → E, (∀ x, ClosedSquare x → ContDiffAt ℝ ∞ g x) ∧ ∀ x, ClosedSquare x → f x = g x

/-- The same for functions of two points of the square. -/
def SmoothPair (f : ℝ × ℝ → ℝ × ℝ → E) : Prop :=
  ∃ g : (ℝ × ℝ) × (ℝ × ℝ) → E, (∀ y z, ClosedSquare y → ClosedSquare z → ContDiffAt ℝ ∞ g (y, z)) ∧
    ∀ y z, ClosedSquare y → ClosedSquare z → f y z = g (y, z)

/-- The parametrisations of the `P` patches, points and tangents, are smooth. -/
def SmoothPatches (P : Nat) (geo : Nat → ℝ × ℝ → V3 × V3 × V3) : Prop := ∀ p < P, SmoothSquare (geo p)

/-- The closed elements (or clusters) `a` and `b` have no common point. -/
def Separated (t : Mesh.Tree ℝ) (geo : Nat → ℝ × ℝ → V3 × V3 × V3) (a b : Mesh.Addr) : Prop :=
  ∀ y z, ClosedSquare y → ClosedSquare z → (SuperSpace.map2surface t geo a y 1).f ≠ (SuperSpace.map2surface t geo b z 1).f

open Mesh in
/-- The surface does not intersect itself: two different patches have common points only on a common edge, at corresponding parameters, or in
a common corner, and a patch has no double points apart from its corners. -/
def Embedded (corner : Nat → Nat → V3) (P : Nat) (geo : Nat → ℝ × ℝ → V3 × V3 × V3) : Prop :=
  ∀ p < P, ∀ q < P, ∀ s r, ClosedSquare s → ClosedSquare r → (geo p s).1 = (geo q r).1 →
    (p = q ∧ s = r) ∨
    (p ≠ q ∧ ∃ i < 4, ∃ j < 4, ∃ x : ℝ, 0 ≤ x ∧ x ≤ 1 ∧ s = edgePoint i x ∧
      ((corner p i = corner q j ∧ corner p ((i + 1) % 4) = corner q ((j + 1) % 4) ∧ r = edgePoint j x) ∨
        (corner p i = corner q ((j + 1) % 4) ∧ corner p ((i + 1) % 4) = corner q j ∧ r = edgePoint j (1 - x)))) ∨
    (∃ i < 4, ∃ j < 4, s = cornerPoint i ∧ r = cornerPoint j)

open Mesh H2 Finset

variable {R : Type} [RCLike R]

/-- Entry `(k, l)` of the exact matrix of the pair of elements `a` and `b`: the integral of the integrand of the operator over both elements. -/
noncomputable def exactEntry (t : Mesh.Tree ℝ) (op : Operator R) (surf : Addr → ℝ × ℝ → ℝ → SurfPt) (P M : Nat)
    (jr : Nat → ℝ) (jk : Nat → R) (a b : Addr) (k l : Nat) : R :=
  ∫ x in (0 : ℝ)..1, ∫ y in (0 : ℝ)..1, ∫ u in (0 : ℝ)..1, ∫ v in (0 : ℝ)..1,
    op.integrand jr jk P M (surf a (x, y) (getH t a)) (surf b (u, v) (getH t b)) (fun _ _ => 0) k l

/-- The entries of the operator `op` are computed accurately on smooth surfaces, for elements without common points.  For every regular
smooth surface, mesh, polynomial degree `p` and power `κ` there is a constant `C` such that

* the tensor product of the Gauss rule number `i` of the library approximates the entries of separated elements up to `C / (i + 1) ^ κ`,
* with `n` interpolation points the far field entries of separated clusters, computed with the rule of the moment matrices, differ from the
  entries of the exact matrix by at most `C / n ^ κ`.

`es` is the eigenvalue solver that computes the Gauss rules with more than 20 points. -/
def RapidlyAccurate (es : EigenSolver) (op : Operator R) (T : (P M d a i : Nat) → ℝ × ℝ → ℝ) : Prop :=
  ∀ (near : V3 → V3 → Bool) (corner : Nat → Nat → V3) (P M : Nat), 0 < P → ∀ (geo : Nat → ℝ × ℝ → V3 × V3 × V3),
    RegularPatches P geo → SmoothPatches P geo → ∀ (t : Mesh.Tree ℝ), initElementTree near corner P M = some t → ∀ p κ : Nat, ∃ C,
    (∀ a b, IsNode P M a → IsNode P M b → Separated t geo a b → ∀ order i, i ≤ order → ∀ (jr : Nat → ℝ) (jk : Nat → R),
      ∀ d < op.vd, ∀ e < op.vd, ∀ r < (p + 1) * (p + 1), ∀ c < (p + 1) * (p + 1),
      ‖directEntry t op (SuperSpace.map2surface t geo) (gaussLegendre es order i) p M jr jk a b (d * ((p + 1) * (p + 1)) + r)
          (e * ((p + 1) * (p + 1)) + c) -
        exactEntry t op (SuperSpace.map2surface t geo) p M jr jk a b (d * ((p + 1) * (p + 1)) + r) (e * ((p + 1) * (p + 1)) + c)‖ ≤
      C / ((i : ℝ) + 1) ^ κ) ∧
    (∀ n, 0 < n → ∀ order, gaussIndex n p ≤ order → ∀ l ≤ M, ∀ c1 c2, IsNode P l c1 → IsNode P l c2 → Separated t geo c1 c2 →
      ∀ L1 L2, clusterElements t c1 = some L1 → clusterElements t c2 = some L2 → ∀ a ∈ L1, ∀ b ∈ L2, ∀ (jr : Nat → ℝ) (jk : Nat → R),
      ∀ d < op.vd, ∀ e < op.vd, ∀ r < (p + 1) * (p + 1), ∀ c < (p + 1) * (p + 1),
      ‖farEntry t op (SuperSpace.map2surface t geo) (gaussLegendre es order (gaussIndex n p)) (chebychevRoots n) n (T p M) c1 c2 a b d e r c -
        exactEntry t op (SuperSpace.map2surface t geo) p M jr jk a b (d * ((p + 1) * (p + 1)) + r) (e * ((p + 1) * (p + 1)) + c)‖ ≤
      C / (n : ℝ) ^ κ)

end Bembel.Spec
