import Verif.Spec.SurfaceIntegral
import Verif.Spec.Singular
/-! # Specification: the Galerkin matrix of the single layer operator of the Laplace equation -/

namespace Bembel.Spec
open Mesh Finset

/-- The integral of `g` over all pairs of elements of a list, in the parameter domains of the patches. -/
noncomputable def doubleIntegral (t : Mesh.Tree ℝ) (geo : Nat → ℝ × ℝ → V3 × V3 × V3) (els : List Addr) (g : Addr → SurfPt → Addr → SurfPt → ℝ) : ℝ :=
  (els.map fun a => (els.map fun b => getH t a ^ 2 * getH t b ^ 2 * ∫ x in (0 : ℝ)..1, ∫ y in (0 : ℝ)..1, ∫ u in (0 : ℝ)..1, ∫ v in (0 : ℝ)..1,
    g a (elementPoint t geo a (x, y)) b (elementPoint t geo b (u, v))).sum).sum

/-- The bilinear form of the single layer operator: the double surface integral of `f(x) g(y) / (4 π |x - y|)`, where `f` and `g` are functions of
the ansatz space that are given by their vectors of degrees of freedom. -/
noncomputable def singleLayerForm (space : FunctionEval.Space ℝ) (els : List Addr) (f g : EMat ℝ) : ℝ :=
  doubleIntegral space.t space.geo els fun a x b y =>
    discreteFunction space.trans f space.t.nElements space.P 0 (space.t.id a) (getH space.t a) x.xi *
    discreteFunction space.trans g space.t.nElements space.P 0 (space.t.id b) (getH space.t b) y.xi *
    (1 / (4 * Real.pi * ‖x.f - y.f‖)) * ‖cross3 x.dx x.dy‖ * ‖cross3 y.dx y.dy‖

/-- The function with the degrees of freedom `f` vanishes inside all elements. -/
def VanishesInside (P M : Nat) (space : FunctionEval.Space ℝ) (f : EMat ℝ) : Prop :=
  ∀ a, IsNode P M a → ∀ s : ℝ × ℝ, 0 < s.1 → s.1 < 1 → 0 < s.2 → s.2 < 1 →
    discreteFunction space.trans f space.t.nElements space.P 0 (space.t.id a) (getH space.t a) s = 0

/-- The matrix `A` of size `n` is positive definite. -/
def PositiveDefinite (n : Nat) (A : Nat → Nat → ℝ) : Prop :=
  ∀ f : Nat → ℝ, (∃ c < n, f c ≠ 0) → 0 < ∑ c ∈ range n, f c * ∑ d ∈ range n, A c d * f d

/-- The vector `x` solves the linear system with the matrix `A` of size `n` and the right-hand side `v`. -/
def Solves (n : Nat) (A : Nat → Nat → ℝ) (x v : Nat → ℝ) : Prop := ∀ c < n, ∑ d ∈ range n, A c d * x d = v c

end Bembel.Spec
