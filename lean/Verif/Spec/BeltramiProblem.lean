import Verif.Spec.ReactionDiffusion
import Verif.Spec.NeumannProblem
/-! # Specification: the Laplace-Beltrami equation `-Δu = g` on a connected surface is solved with the matrix stabilised by the mean values -/

namespace Bembel.Spec
open Mesh Finset

/-- The entries of the exact Galerkin matrix: `∫ ∇φ_c · ∇φ_d`. -/
noncomputable def stiffness (space : FunctionEval.Space ℝ) (els : List Addr) (grad : (Nat → ℝ) → Addr → SurfPt → V3) (c d : Nat) : ℝ :=
  reactionForm space els grad 0 1 (unitDofs c) (unitDofs d)

/-- For systems with the solution `x`: the library computes the matrix `K` of the Laplace-Beltrami operator, the mean values `v` of the ansatz functions and the
right-hand side `w` for the data `g` such that, if all Gauss rules have at least `N` points, the matrix `K + γ v vᵀ` is positive definite and the computed
system has exactly one solution `y`; and the degrees of freedom `x` and `y` and the values of their functions, everywhere on the surface, differ by at most
`C κ / (i + 1) ^ κ`, for every `κ`, if all Gauss rules have at least `i + 1` points. -/
def ComputesBeltrami (es : EigenSolver) (P M : Nat) (space : FunctionEval.Space ℝ) (g : V3 → ℝ) (γ : ℝ) (x : Nat → ℝ) : Prop :=
  let n := space.trans.cols
  ∃ (N : Nat) (C : Nat → ℝ), ∀ i, N ≤ i → ∀ o1 j1 o2 j2 o3 j3, i ≤ j1 → j1 ≤ o1 → i ≤ j2 → j2 ≤ o2 → i ≤ j3 → j3 ≤ o3 → ∀ junk1 junk2 junk3 : Nat → ℝ,
    ∃ K v w, LocalOperator.compute junk1 LocalOperator.laplaceBeltrami space (gaussSquare es o1 j1) = some K ∧ K.rows = n ∧ K.cols = n ∧
      LinearForm.compute junk2 (LinearForm.dirichlet fun _ => 1) space (gaussSquare es o2 j2) = some v ∧
      LinearForm.compute junk3 (LinearForm.dirichlet g) space (gaussSquare es o3 j3) = some w ∧
      let S := stabilised γ K.at' fun c => v.at' c 0
      PositiveDefinite n S ∧
      ∃ y, Solves n S y (fun c => w.at' c 0) ∧ (∀ z, Solves n S z (fun c => w.at' c 0) → ∀ c < n, z c = y c) ∧
        ∀ κ, (∀ c < n, |y c - x c| ≤ C κ / ((i : ℝ) + 1) ^ κ) ∧
          ∀ a, IsNode P M a → ∀ s, ClosedSquare s → |valueAt space y a s - valueAt space x a s| ≤ C κ / ((i : ℝ) + 1) ^ κ

/-- The equation `-Δu = g` is solved by the Galerkin method with the stabilisation `γ m mᵀ`, where `m` are the mean values of the ansatz functions.

* The form `∫ ∇u · ∇v` is positive semidefinite and `∫ |∇u|²` vanishes exactly for the constant functions of the ansatz space.
* The stabilised matrix is positive definite and the stabilised system has exactly one solution `x`.
* If the integral of the data vanishes, `x` is the one solution with the mean value zero of the system without the stabilisation, and the only function with
  the mean value zero that minimises `∫ |∇u|² - 2 g u` over the ansatz space.
* The library computes `x`. -/
def SolvesBeltrami (es : EigenSolver) (P M : Nat) (space : FunctionEval.Space ℝ) (g : V3 → ℝ) (γ : ℝ) : Prop :=
  ∃ els, elements space.t = some els ∧ (∃ grad, Gradients P M space grad) ∧ ∀ grad, Gradients P M space grad →
  let n := space.trans.cols
  let A := stiffness space els grad
  let m := galerkinLoad space els fun _ => 1
  let b := galerkinLoad space els g
  let energy := reactionEnergy space els grad 0 1 g
  (∀ u, 0 ≤ reactionForm space els grad 0 1 u u ∧
    (reactionForm space els grad 0 1 u u = 0 ↔ ∃ k, EqualsConstant P M space ⟨n, 1, fun c _ => u c⟩ k)) ∧
  PositiveDefinite n (stabilised γ A m) ∧
  ∃ x, Solves n (stabilised γ A m) x b ∧ (∀ y, Solves n (stabilised γ A m) y b → ∀ c < n, y c = x c) ∧
    (surfaceIntegral space.t space.geo els (fun _ s => g s.f * ‖cross3 s.dx s.dy‖) = 0 →
      Solves n A x b ∧ ∑ c ∈ range n, m c * x c = 0 ∧ (∀ y, Solves n A y b → ∑ c ∈ range n, m c * y c = 0 → ∀ c < n, y c = x c) ∧
      ∀ f, energy x ≤ energy f ∧ (energy f = energy x → ∑ c ∈ range n, m c * f c = 0 → ∀ c < n, f c = x c)) ∧
    ComputesBeltrami es P M space g γ x

end Bembel.Spec
