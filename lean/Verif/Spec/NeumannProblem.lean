import Verif.Spec.DirichletProblem
import Verif.Spec.Hypersingular
/-! # Specification: the Neumann problem of the Laplace equation is solved with the hypersingular operator -/

namespace Bembel.Spec
open Mesh Finset H2

/-- The entries of the exact Galerkin matrix of the hypersingular operator. -/
noncomputable def hypersingularMatrix (space : FunctionEval.Space ℝ) (els : List Addr) (c d : Nat) : ℝ :=
  hypersingularForm space els (unitVec space.trans.cols c) (unitVec space.trans.cols d)

/-- The entries of the exact right-hand side for the Neumann data `g · n`: `∫ (g · n) φ_c`. -/
noncomputable def neumannLoad (space : FunctionEval.Space ℝ) (els : List Addr) (g : V3 → Fin 3 → ℝ) (c : Nat) : ℝ :=
  surfaceIntegral space.t space.geo els fun a s => (∑ k, g s.f k * cross3 s.dx s.dy k) *
    discreteFunction space.trans (unitVec space.trans.cols c) space.t.nElements space.P 0 (space.t.id a) (getH space.t a) s.xi

/-- The matrix `A + α m mᵀ`; with the mean values `m` of the ansatz functions it removes the constants from the kernel of `A`. -/
noncomputable def stabilised (α : ℝ) (A : Nat → Nat → ℝ) (m : Nat → ℝ) (c d : Nat) : ℝ := A c d + α * (m c * m d)

/-- The computed matrix of the hypersingular operator converges to the exact matrix, faster than every power of the number of points of the Gauss rules,
whatever the order of the assignments of the threads and the previous contents of the memory. -/
def HypersingularAccurate (es : EigenSolver) (B : Addr → Util.Ball V3) (P M : Nat) (space : FunctionEval.Space ℝ) : Prop :=
  ∃ els, elements space.t = some els ∧
  let n := space.trans.cols
  let t := space.t
  let p := space.P
  let op := Operator.laplaceHyp
  ∃ C : Nat → ℝ, ∀ i (GS : Nat → Cubature ℝ), RulesFrom es i GS → ∀ (ffq : Addr → Nat → SurfPt),
    (∀ a, IsNode P M a → ∀ k < (GS (Duffy.farfieldDegree op.order p).toNat).size, ffq a k =
      SuperSpace.map2surface t space.geo a ((GS (Duffy.farfieldDegree op.order p).toNat).xi k) (getH t a * (GS (Duffy.farfieldDegree op.order p).toNat).w k)) →
    ∀ (jr jk : Nat → ℝ) (junk : Nat → Nat → ℝ),
    ∃ L, Dense.tasks t 1 ((p + 1) * (p + 1)) (Duffy.evaluateBilinearForm op.order p t B (op.integrand jr jk p M)
        (SuperSpace.map2surface t space.geo) GS ffq) = some L ∧
      ∀ ws, ws.Perm L.flatten → ∃ S, Dense.compute junk t 1 ((p + 1) * (p + 1)) ws space.trans = some S ∧ S.rows = n ∧ S.cols = n ∧
        ∀ κ, ∀ c < n, ∀ d < n, |S.at' c d - hypersingularMatrix space els c d| ≤ C κ / ((i : ℝ) + 1) ^ κ

/-- The library computes the system of the Neumann problem with the data `g · n`, stabilised with the parameter `α`.

* The exact stabilised Galerkin matrix is positive definite, and the system has exactly one solution `x`.
* If the total flux `∮ g · n` vanishes, `x` is the one solution with the mean value zero of the Galerkin system without the stabilisation.
* If the Gauss rules have at least `N` points, then the stabilised computed matrix (from the computed matrix of the hypersingular operator and the computed
  mean values of the ansatz functions) is positive definite, the computed system has exactly one solution `y`, and `x` and `y` differ by at most
  `C κ / (i + 1) ^ κ`, for every `κ`, if all Gauss rules have at least `i + 1` points. -/
def SolvesNeumann (es : EigenSolver) (B : Addr → Util.Ball V3) (P M : Nat) (space : FunctionEval.Space ℝ) (g : V3 → Fin 3 → ℝ) (α : ℝ) : Prop :=
  ∃ els, elements space.t = some els ∧
  let n := space.trans.cols
  let t := space.t
  let p := space.P
  let op := Operator.laplaceHyp
  let A := hypersingularMatrix space els
  let m := galerkinLoad space els fun _ => 1
  let b := neumannLoad space els g
  PositiveDefinite n (stabilised α A m) ∧
  ∃ x, Solves n (stabilised α A m) x b ∧ (∀ y, Solves n (stabilised α A m) y b → ∀ c < n, y c = x c) ∧
  (surfaceIntegral t space.geo els (fun _ s => ∑ k, g s.f k * cross3 s.dx s.dy k) = 0 →
    Solves n A x b ∧ ∑ c ∈ range n, m c * x c = 0 ∧
    ∀ y, Solves n A y b → ∑ c ∈ range n, m c * y c = 0 → ∀ c < n, y c = x c) ∧
  ∃ (N : Nat) (C : Nat → ℝ), ∀ i, N ≤ i → ∀ (GS : Nat → Cubature ℝ), RulesFrom es i GS → ∀ (ffq : Addr → Nat → SurfPt),
    (∀ a, IsNode P M a → ∀ k < (GS (Duffy.farfieldDegree op.order p).toNat).size, ffq a k =
      SuperSpace.map2surface t space.geo a ((GS (Duffy.farfieldDegree op.order p).toNat).xi k) (getH t a * (GS (Duffy.farfieldDegree op.order p).toNat).w k)) →
    ∀ (jr jk junk1 : Nat → ℝ) (junk2 : Nat → Nat → ℝ) (order j : Nat), i ≤ j → j ≤ order →
    ∃ L v w, Dense.tasks t 1 ((p + 1) * (p + 1)) (Duffy.evaluateBilinearForm op.order p t B (op.integrand jr jk p M)
        (SuperSpace.map2surface t space.geo) GS ffq) = some L ∧
      LinearForm.compute junk1 (LinearForm.dirichlet fun _ => 1) space (gaussSquare es order j) = some v ∧
      LinearForm.compute junk1 (LinearForm.neumann g) space (gaussSquare es order j) = some w ∧
      ∀ ws, ws.Perm L.flatten → ∃ S, Dense.compute junk2 t 1 ((p + 1) * (p + 1)) ws space.trans = some S ∧ S.rows = n ∧ S.cols = n ∧
        PositiveDefinite n (stabilised α S.at' fun c => v.at' c 0) ∧
        ∃ y, Solves n (stabilised α S.at' fun c => v.at' c 0) y (fun c => w.at' c 0) ∧
          (∀ z, Solves n (stabilised α S.at' fun c => v.at' c 0) z (fun c => w.at' c 0) → ∀ c < n, z c = y c) ∧
          ∀ κ, ∀ c < n, |y c - x c| ≤ C κ / ((i : ℝ) + 1) ^ κ

/-- The same with the compressed matrix of the hypersingular operator: `q > i` interpolation points in every direction.  The products with the assembled
H2-matrix, in all orders of the tasks of the assembly and for all schedules of the multiplication, are products with one matrix `S` (that is never formed). -/
def SolvesNeumannCompressed (es : EigenSolver) (B : Addr → Util.Ball V3) (P M : Nat) (eta : ℝ) (minLevel : Int) (space : FunctionEval.Space ℝ)
    (g : V3 → Fin 3 → ℝ) (α : ℝ) : Prop :=
  ∃ els, elements space.t = some els ∧
  let n := space.trans.cols
  let t := space.t
  let p := space.P
  let op := Operator.laplaceHyp
  let A := hypersingularMatrix space els
  let m := galerkinLoad space els fun _ => 1
  let b := neumannLoad space els g
  PositiveDefinite n (stabilised α A m) ∧
  ∃ x, Solves n (stabilised α A m) x b ∧ (∀ y, Solves n (stabilised α A m) y b → ∀ c < n, y c = x c) ∧
  (surfaceIntegral t space.geo els (fun _ s => ∑ k, g s.f k * cross3 s.dx s.dy k) = 0 →
    Solves n A x b ∧ ∑ c ∈ range n, m c * x c = 0 ∧
    ∀ y, Solves n A y b → ∑ c ∈ range n, m c * y c = 0 → ∀ c < n, y c = x c) ∧
  ∃ (N : Nat) (C : Nat → ℝ), ∀ i, N ≤ i → ∀ (GS : Nat → Cubature ℝ), RulesFrom es i GS → ∀ (ffq : Addr → Nat → SurfPt),
    (∀ a, IsNode P M a → ∀ k < (GS (Duffy.farfieldDegree op.order p).toNat).size, ffq a k =
      SuperSpace.map2surface t space.geo a ((GS (Duffy.farfieldDegree op.order p).toNat).xi k) (getH t a * (GS (Duffy.farfieldDegree op.order p).toNat).w k)) →
    ∀ (E : MomentEnv) (q : Nat), i < q → E.pts q = chebychevRoots q →
    ∀ ord, gaussIndex q p ≤ ord → E.GL (gaussIndex q p) = gaussLegendre es ord (gaussIndex q p) →
    ∀ (jr jk junk1 : Nat → ℝ) (order j : Nat), i ≤ j → j ≤ order →
    ∃ v w S, LinearForm.compute junk1 (LinearForm.dirichlet fun _ => 1) space (gaussSquare es order j) = some v ∧
      LinearForm.compute junk1 (LinearForm.neumann g) space (gaussSquare es order j) = some w ∧
      (∀ (junk : Nat → Nat → ℝ) (junkE junkT : Nat → Nat → ℝ) (M0 : LeafMem ℝ) (ws : List Nat),
        ws.Perm (List.range (BlockCluster.leafPointers (BlockCluster.initBlockClusterTree t B eta minLevel)).length) →
        ∃ H, initH2Matrix junk junkE junkT M0 op t B eta minLevel p space.trans (SuperSpace.map2surface t space.geo)
            (Duffy.evaluateBilinearForm op.order p t B (op.integrand jr jk p M) (SuperSpace.map2surface t space.geo) GS ffq) E
            compute2DMomentLaplaceHyp q ws = some H ∧
        ∀ (junk : Nat → Nat → ℝ) (Sch : Schedules H) (rhs res : EMat ℝ) (alpha : ℝ),
          rhs.rows = n → res.rows = n → res.cols = rhs.cols →
          ∃ res', run junk H Sch rhs res alpha = some res' ∧ res'.rows = res.rows ∧ res'.cols = res.cols ∧
          ∀ k < n, ∀ c < res.cols, res'.at' k c = res.at' k c + alpha * ∑ d ∈ range n, S k d * rhs.at' d c) ∧
      (∀ κ, ∀ c < n, ∀ d < n, |S c d - A c d| ≤ C κ / ((i : ℝ) + 1) ^ κ) ∧
      PositiveDefinite n (stabilised α S fun c => v.at' c 0) ∧
        ∃ y, Solves n (stabilised α S fun c => v.at' c 0) y (fun c => w.at' c 0) ∧
          (∀ z, Solves n (stabilised α S fun c => v.at' c 0) z (fun c => w.at' c 0) → ∀ c < n, z c = y c) ∧
          ∀ κ, ∀ c < n, |y c - x c| ≤ C κ / ((i : ℝ) + 1) ^ κ

end Bembel.Spec
