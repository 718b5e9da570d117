import Verif.Spec.SingleLayer
import Verif.Spec.LinearForm
import Mathlib.Logic.Relation
/-! # Specification: the Galerkin matrix of the hypersingular operator of the Laplace equation -/

namespace Bembel.Spec
open Mesh Finset

/-- The surface curl of a function with partial derivatives `ux` and `uy` in the patch coordinates: the surface gradient, turned by a right angle. -/
noncomputable def surfaceCurl (dx dy : V3) (ux uy : ℝ) : V3 := (1 / ‖cross3 dx dy‖) • (ux • dy - uy • dx)

/-- The surface curl of the function with the degrees of freedom `f` at the point `s` of the element `a`. -/
noncomputable def discreteCurl (space : FunctionEval.Space ℝ) (f : EMat ℝ) (a : Addr) (s : SurfPt) : V3 :=
  surfaceCurl s.dx s.dy (discreteDx space.trans f space.t.nElements space.P 0 (space.t.id a) (getH space.t a) s.xi)
    (discreteDy space.trans f space.t.nElements space.P 0 (space.t.id a) (getH space.t a) s.xi)

/-- The bilinear form of the hypersingular operator, integrated by parts: the double surface integral of `curl f(x) · curl g(y) / (4 π |x - y|)`, where `f`
and `g` are functions of the ansatz space that are given by their vectors of degrees of freedom. -/
noncomputable def hypersingularForm (space : FunctionEval.Space ℝ) (els : List Addr) (f g : EMat ℝ) : ℝ :=
  doubleIntegral space.t space.geo els fun a x b y =>
    inner ℝ (discreteCurl space f a x) (discreteCurl space g b y) *
    (1 / (4 * Real.pi * ‖x.f - y.f‖)) * ‖cross3 x.dx x.dy‖ * ‖cross3 y.dx y.dy‖

/-- The function with the degrees of freedom `f` is constant on every element. -/
def ElementwiseConstant (P M : Nat) (space : FunctionEval.Space ℝ) (f : EMat ℝ) : Prop :=
  ∀ a, IsNode P M a → ∃ c : ℝ, ∀ s : ℝ × ℝ, 0 < s.1 → s.1 < 1 → 0 < s.2 → s.2 < 1 →
    discreteFunction space.trans f space.t.nElements space.P 0 (space.t.id a) (getH space.t a) s = c

/-- The surface is connected: every patch is reached from every patch across common edges. -/
def PatchesConnected {V : Type} (corner : Nat → Nat → V) (P : Nat) : Prop :=
  ∀ p < P, ∀ q < P, Relation.ReflTransGen (fun p q => p < P ∧ q < P ∧ ∃ i < 4, ∃ k < 4, patchEdge corner p i = patchEdge corner q k) p q

/-- The function with the degrees of freedom `f` has the constant value `c`. -/
def EqualsConstant (P M : Nat) (space : FunctionEval.Space ℝ) (f : EMat ℝ) (c : ℝ) : Prop :=
  ∀ a, IsNode P M a → ∀ s : ℝ × ℝ, 0 < s.1 → s.1 < 1 → 0 < s.2 → s.2 < 1 →
    discreteFunction space.trans f space.t.nElements space.P 0 (space.t.id a) (getH space.t a) s = c

end Bembel.Spec
