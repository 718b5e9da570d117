import Verif.Spec.BeltramiProblem
import Verif.Model.L2Error
/-! # Specification: the library reports L2 errors accurately -/

namespace Bembel.Spec
open Mesh Finset

/-- The L2 distance of the data `g` and the function with the degrees of freedom `x`. -/
noncomputable def distance (space : FunctionEval.Space ℝ) (els : List Addr) (g : V3 → ℝ) (x : Nat → ℝ) : ℝ := Real.sqrt (squaredDistance space els g x)

/-- The reported error is the L2 distance, up to `C (1 + B) / (i + 1) ^ κ` for every `κ` if Gauss rule `i` is used, for all vectors with entries between `-B`
and `B`. -/
def ReportsErrors (es : EigenSolver) (space : FunctionEval.Space ℝ) (g : V3 → ℝ) : Prop :=
  ∃ els, elements space.t = some els ∧ ∀ κ : Nat, ∃ C, 0 ≤ C ∧ ∀ order i, i ≤ order → ∀ (junk : Nat → ℝ) (e0 : FunctionEval.Evaluator ℝ) (x : EMat ℝ) (B : ℝ),
    x.rows = space.trans.cols → x.cols = 1 → 0 ≤ B → (∀ c < space.trans.cols, |x.at' c 0| ≤ B) →
    ∃ err, L2Error.surfaceL2error junk e0 space x g (gaussSquare es order i) = some err ∧
      |err - distance space els g fun c => x.at' c 0| ≤ C * (1 + B) / ((i : ℝ) + 1) ^ κ

/-- The error reported for the computed L2 projection of `g` (mass matrix `Ma`, right-hand side `v`, solution `y`) is the smallest distance of `g` to the ansatz
space, up to `C / (i + 1) ^ κ` for every `κ` if all Gauss rules have at least `i + 1` points. -/
def ReportsBestError (es : EigenSolver) (space : FunctionEval.Space ℝ) (g : V3 → ℝ) : Prop :=
  let n := space.trans.cols
  ∃ els, elements space.t = some els ∧ ∃ best, (∃ x, distance space els g x = best) ∧ (∀ x, best ≤ distance space els g x) ∧
    ∃ (N : Nat) (C : Nat → ℝ), ∀ i, N ≤ i → ∀ o1 j1 o2 j2 o3 j3, i ≤ j1 → j1 ≤ o1 → i ≤ j2 → j2 ≤ o2 → i ≤ j3 → j3 ≤ o3 →
      ∀ (junk1 junk2 junk3 : Nat → ℝ) (e0 : FunctionEval.Evaluator ℝ),
      ∃ Ma v, LocalOperator.compute junk1 LocalOperator.identity space (gaussSquare es o1 j1) = some Ma ∧
        LinearForm.compute junk2 (LinearForm.dirichlet g) space (gaussSquare es o2 j2) = some v ∧
        (∃ y, Solves n Ma.at' y fun c => v.at' c 0) ∧
        ∀ y : EMat ℝ, y.rows = n → y.cols = 1 → Solves n Ma.at' (fun c => y.at' c 0) (fun c => v.at' c 0) →
          ∃ err, L2Error.surfaceL2error junk3 e0 space y g (gaussSquare es o3 j3) = some err ∧ ∀ κ, |err - best| ≤ C κ / ((i : ℝ) + 1) ^ κ

/-- The error with respect to the reference `r` reported for the computed solution of the stabilised Laplace-Beltrami system with the data `g` (matrix `K`, mean
values `v`, right-hand side `w`, solution `y`) is the distance of `r` to the exact solution `x` of the stabilised Galerkin system, up to `C / (i + 1) ^ κ` for
every `κ` if all Gauss rules have at least `i + 1` points. -/
def ReportsReference (es : EigenSolver) (P M : Nat) (space : FunctionEval.Space ℝ) (g r : V3 → ℝ) (γ : ℝ) : Prop :=
  let n := space.trans.cols
  ∃ els, elements space.t = some els ∧ (∃ grad, Gradients P M space grad) ∧ ∀ grad, Gradients P M space grad →
    ∃ x, Solves n (stabilised γ (stiffness space els grad) (galerkinLoad space els fun _ => 1)) x (galerkinLoad space els g) ∧
    ∃ (N : Nat) (C : Nat → ℝ), ∀ i, N ≤ i → ∀ o1 j1 o2 j2 o3 j3 o4 j4, i ≤ j1 → j1 ≤ o1 → i ≤ j2 → j2 ≤ o2 → i ≤ j3 → j3 ≤ o3 → i ≤ j4 → j4 ≤ o4 →
      ∀ (junk1 junk2 junk3 junk4 : Nat → ℝ) (e0 : FunctionEval.Evaluator ℝ),
      ∃ K v w, LocalOperator.compute junk1 LocalOperator.laplaceBeltrami space (gaussSquare es o1 j1) = some K ∧
        LinearForm.compute junk2 (LinearForm.dirichlet fun _ => 1) space (gaussSquare es o2 j2) = some v ∧
        LinearForm.compute junk3 (LinearForm.dirichlet g) space (gaussSquare es o3 j3) = some w ∧
        (∃ y, Solves n (stabilised γ K.at' fun c => v.at' c 0) y fun c => w.at' c 0) ∧
        ∀ y : EMat ℝ, y.rows = n → y.cols = 1 → Solves n (stabilised γ K.at' fun c => v.at' c 0) (fun c => y.at' c 0) (fun c => w.at' c 0) →
          ∃ err, L2Error.surfaceL2error junk4 e0 space y r (gaussSquare es o4 j4) = some err ∧
            ∀ κ, |err - distance space els r x| ≤ C κ / ((i : ℝ) + 1) ^ κ

end Bembel.Spec
