import Verif.Spec.DirichletProblem
/-! # Specification: the L2 projection and the equation `-β Δu + α u = g` on a surface are solved with the local operators -/

namespace Bembel.Spec
open Mesh Finset

/-- The value of the function with the degrees of freedom `x` at the local coordinates `s` of the element `a`. -/
noncomputable def valueAt (space : FunctionEval.Space ℝ) (x : Nat → ℝ) (a : Addr) (s : ℝ × ℝ) : ℝ :=
  discreteFunction space.trans ⟨space.trans.cols, 1, fun c _ => x c⟩ space.t.nElements space.P 0 (space.t.id a) (getH space.t a) s

/-- `grad x a` is the surface gradient of the function with the degrees of freedom `x` on the element `a`: the tangential vector whose products with the
tangents are the partial derivatives of the function. -/
def Gradients (P M : Nat) (space : FunctionEval.Space ℝ) (grad : (Nat → ℝ) → Addr → SurfPt → V3) : Prop :=
  ∀ x a s, IsNode P M a → ClosedSquare s → let p := elementPoint space.t space.geo a s
    IsSurfaceGradient p.dx p.dy
      (discreteDx space.trans ⟨space.trans.cols, 1, fun c _ => x c⟩ space.t.nElements space.P 0 (space.t.id a) (getH space.t a) s)
      (discreteDy space.trans ⟨space.trans.cols, 1, fun c _ => x c⟩ space.t.nElements space.P 0 (space.t.id a) (getH space.t a) s) (grad x a p)

/-- The degrees of freedom of the ansatz function `c`. -/
def unitDofs (c d : Nat) : ℝ := if d = c then 1 else 0

/-- `∫ α u v + β ∇u · ∇v` over the surface, for the functions with the degrees of freedom `x` and `y`. -/
noncomputable def reactionForm (space : FunctionEval.Space ℝ) (els : List Addr) (grad : (Nat → ℝ) → Addr → SurfPt → V3) (α β : ℝ) (x y : Nat → ℝ) : ℝ :=
  surfaceIntegral space.t space.geo els fun a s =>
    ‖cross3 s.dx s.dy‖ * (α * (valueAt space x a s.xi * valueAt space y a s.xi) + β * inner ℝ (grad x a s) (grad y a s))

/-- The energy `∫ α u² + β |∇u|² - 2 g u`. -/
noncomputable def reactionEnergy (space : FunctionEval.Space ℝ) (els : List Addr) (grad : (Nat → ℝ) → Addr → SurfPt → V3) (α β : ℝ) (g : V3 → ℝ)
    (x : Nat → ℝ) : ℝ :=
  surfaceIntegral space.t space.geo els fun a s =>
    ‖cross3 s.dx s.dy‖ * (α * valueAt space x a s.xi ^ 2 + β * ‖grad x a s‖ ^ 2 - 2 * (g s.f * valueAt space x a s.xi))

/-- The squared L2 distance `∫ (g - u)²` of the data and the function with the degrees of freedom `x`. -/
noncomputable def squaredDistance (space : FunctionEval.Space ℝ) (els : List Addr) (g : V3 → ℝ) (x : Nat → ℝ) : ℝ :=
  surfaceIntegral space.t space.geo els fun a s => ‖cross3 s.dx s.dy‖ * (g s.f - valueAt space x a s.xi) ^ 2

/-- For systems with the matrix `A` of size `n`, the right-hand side `b` and the solution `x`: the library computes the mass matrix `Ma`, the matrix `K` of the
Laplace-Beltrami operator and the right-hand side `v` for the data `g` such that, if all Gauss rules have at least `N` points, the matrix `α Ma + β K` is positive
definite and the computed system has exactly one solution `y`; and the degrees of freedom `x` and `y` and the values of their functions, everywhere on the
surface, differ by at most `C κ / (i + 1) ^ κ`, for every `κ`, if all Gauss rules have at least `i + 1` points. -/
def ComputesReaction (es : EigenSolver) (P M : Nat) (space : FunctionEval.Space ℝ) (g : V3 → ℝ) (α β : ℝ) (x : Nat → ℝ) : Prop :=
  let n := space.trans.cols
  ∃ (N : Nat) (C : Nat → ℝ), ∀ i, N ≤ i → ∀ o1 j1 o2 j2 o3 j3, i ≤ j1 → j1 ≤ o1 → i ≤ j2 → j2 ≤ o2 → i ≤ j3 → j3 ≤ o3 → ∀ junk1 junk2 junk3 : Nat → ℝ,
    ∃ Ma K v, LocalOperator.compute junk1 LocalOperator.identity space (gaussSquare es o1 j1) = some Ma ∧ Ma.rows = n ∧ Ma.cols = n ∧
      LocalOperator.compute junk2 LocalOperator.laplaceBeltrami space (gaussSquare es o2 j2) = some K ∧ K.rows = n ∧ K.cols = n ∧
      LinearForm.compute junk3 (LinearForm.dirichlet g) space (gaussSquare es o3 j3) = some v ∧
      PositiveDefinite n (fun c d => α * Ma.at' c d + β * K.at' c d) ∧
      ∃ y, Solves n (fun c d => α * Ma.at' c d + β * K.at' c d) y (fun c => v.at' c 0) ∧
        (∀ z, Solves n (fun c d => α * Ma.at' c d + β * K.at' c d) z (fun c => v.at' c 0) → ∀ c < n, z c = y c) ∧
        ∀ κ, (∀ c < n, |y c - x c| ≤ C κ / ((i : ℝ) + 1) ^ κ) ∧
          ∀ a, IsNode P M a → ∀ s, ClosedSquare s → |valueAt space y a s - valueAt space x a s| ≤ C κ / ((i : ℝ) + 1) ^ κ

/-- The equation `-β Δu + α u = g` is solved by the Galerkin method: the ansatz functions have surface gradients, the exact matrix `∫ α u v + β ∇u · ∇v` of the ansatz functions is positive definite, the
Galerkin system has exactly one solution `x`, which is the unique minimiser of the energy in the ansatz space, and the library computes it. -/
def SolvesReaction (es : EigenSolver) (P M : Nat) (space : FunctionEval.Space ℝ) (g : V3 → ℝ) (α β : ℝ) : Prop :=
  ∃ els, elements space.t = some els ∧ (∃ grad, Gradients P M space grad) ∧ ∀ grad, Gradients P M space grad →
  let n := space.trans.cols
  let A := fun c d => reactionForm space els grad α β (unitDofs c) (unitDofs d)
  PositiveDefinite n A ∧
  ∃ x, Solves n A x (galerkinLoad space els g) ∧ (∀ y, Solves n A y (galerkinLoad space els g) → ∀ c < n, y c = x c) ∧
    (∀ f, reactionEnergy space els grad α β g x ≤ reactionEnergy space els grad α β g f ∧
      (reactionEnergy space els grad α β g f = reactionEnergy space els grad α β g x → ∀ c < n, f c = x c)) ∧
    ComputesReaction es P M space g α β x

/-- The L2 projection: the ansatz space has exactly one function `x` with the smallest distance to the data `g`, and the library computes it, with the mass
matrix alone. -/
def ProjectsData (es : EigenSolver) (P M : Nat) (space : FunctionEval.Space ℝ) (g : V3 → ℝ) : Prop :=
  ∃ els, elements space.t = some els ∧ ∃ x : Nat → ℝ,
    (∀ f, squaredDistance space els g x ≤ squaredDistance space els g f ∧
      (squaredDistance space els g f = squaredDistance space els g x → ∀ c < space.trans.cols, f c = x c)) ∧
    ComputesReaction es P M space g 1 0 x

end Bembel.Spec
