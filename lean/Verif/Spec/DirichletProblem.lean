import Verif.Spec.SingleLayer
import Verif.Model.DiscreteOperator
import Verif.Model.H2Init
/-! # Specification: the Dirichlet problem of the Laplace equation is solved with the single layer ansatz -/

namespace Bembel.Spec
open Mesh Finset H2

/-- All Gauss rules of a table have at least `i + 1` points in every direction. -/
def RulesFrom (es : EigenSolver) (i : Nat) (GS : Nat → Cubature ℝ) : Prop :=
  ∀ k < 50, ∃ order j, i ≤ j ∧ j ≤ order ∧ GS k = gaussSquare es order j

/-- The entries of the exact Galerkin matrix. -/
noncomputable def galerkinMatrix (space : FunctionEval.Space ℝ) (els : List Addr) (c d : Nat) : ℝ :=
  singleLayerForm space els (unitVec space.trans.cols c) (unitVec space.trans.cols d)

/-- The entries of the exact right-hand side for the Dirichlet data `g`: `∫ g φ_c`. -/
noncomputable def galerkinLoad (space : FunctionEval.Space ℝ) (els : List Addr) (g : V3 → ℝ) (c : Nat) : ℝ :=
  surfaceIntegral space.t space.geo els fun a s => g s.f * ‖cross3 s.dx s.dy‖ *
    discreteFunction space.trans (unitVec space.trans.cols c) space.t.nElements space.P 0 (space.t.id a) (getH space.t a) s.xi

/-- The exact single layer potential at the point `z` of the function with the degrees of freedom `x`. -/
noncomputable def exactPotential (space : FunctionEval.Space ℝ) (els : List Addr) (x : Nat → ℝ) (z : V3) : ℝ :=
  surfaceIntegral space.t space.geo els fun a s => Kernel.laplace z s.f * ‖cross3 s.dx s.dy‖ *
    discreteFunction space.trans ⟨space.trans.cols, 1, fun c _ => x c⟩ space.t.nElements space.P 0 (space.t.id a) (getH space.t a) s.xi

/-- Whatever the schedules of the threads, the values that the library computes with the rule `Q` for the potential of the degrees of freedom `y` at
points of `K` differ from the exact potential of `x` by at most `ε`. -/
def EvaluatesTo (space : FunctionEval.Space ℝ) (els : List Addr) (K : Set V3) (Q : Cubature ℝ) (y x : Nat → ℝ) (ε : ℝ) : Prop :=
  ∀ (junk : Nat → ℝ) (e0 : FunctionEval.Evaluator ℝ), ∃ e, FunctionEval.initWith 1 e0 space ⟨space.trans.cols, 1, fun c _ => y c⟩ = some e ∧
    ∀ (m : Nat) (z : Fin m → V3), (∀ k, z k ∈ K) → ∀ Sch : Omp.Schedule space.t.nElements,
      ∃ val, Potential.evaluate junk (Potential.singleLayerReal Kernel.laplace) e Q z Sch.sched = some val ∧
        ∀ k q, |val k q - exactPotential space els x (z k)| ≤ ε

/-- The computed system with the matrix `S` and the right-hand side `v` is positive definite and has exactly one solution, and this solution and
its potential on `K` differ from the exact Galerkin solution `x` and its potential by at most `C κ / (i + 1) ^ κ` for every `κ`. -/
def SolutionAccurate (space : FunctionEval.Space ℝ) (els : List Addr) (K : Set V3) (Q : Cubature ℝ) (x : Nat → ℝ) (C : Nat → ℝ) (i : Nat)
    (S : Nat → Nat → ℝ) (v : Nat → ℝ) : Prop :=
  let n := space.trans.cols
  PositiveDefinite n S ∧ ∃ y, Solves n S y v ∧ (∀ z, Solves n S z v → ∀ c < n, z c = y c) ∧
    ∀ κ : Nat, (∀ c < n, |y c - x c| ≤ C κ / ((i : ℝ) + 1) ^ κ) ∧ EvaluatesTo space els K Q y x (C κ / ((i : ℝ) + 1) ^ κ)

/-- The library solves the Dirichlet problem with the data `g` by the Galerkin method with the single layer operator, and evaluates the solution
at the points of the set `K`.

* The exact Galerkin matrix, of the double surface integrals of the ansatz functions, is positive definite, and the Galerkin system with the data
  `g` has exactly one solution `x`.
* If the Gauss rules have at least `N` points, then, whatever the orders of the assignments of the threads and the previous contents of the memory, the
  computed matrix is positive definite and the computed system has exactly one solution `y`.
* The vectors of degrees of freedom `x` and `y`, and the potential of `x` and the values that the library computes for the potential of `y`, differ by
  at most `C κ / (i + 1) ^ κ`, for every `κ`, if all Gauss rules have at least `i + 1` points. -/
def SolvesDirichlet (es : EigenSolver) (B : Addr → Util.Ball V3) (P M : Nat) (space : FunctionEval.Space ℝ) (g : V3 → ℝ) (K : Set V3) : Prop :=
  ∃ els, elements space.t = some els ∧
  let n := space.trans.cols
  let t := space.t
  let p := space.P
  let op := Operator.laplaceSL
  PositiveDefinite n (galerkinMatrix space els) ∧
  ∃ x, Solves n (galerkinMatrix space els) x (galerkinLoad space els g) ∧
    (∀ y, Solves n (galerkinMatrix space els) y (galerkinLoad space els g) → ∀ c < n, y c = x c) ∧
  ∃ (N : Nat) (C : Nat → ℝ), ∀ i, N ≤ i → ∀ (GS : Nat → Cubature ℝ), RulesFrom es i GS → ∀ (ffq : Addr → Nat → SurfPt),
    (∀ a, IsNode P M a → ∀ k < (GS (Duffy.farfieldDegree op.order p).toNat).size, ffq a k =
      SuperSpace.map2surface t space.geo a ((GS (Duffy.farfieldDegree op.order p).toNat).xi k) (getH t a * (GS (Duffy.farfieldDegree op.order p).toNat).w k)) →
    ∀ (jr jk junk1 : Nat → ℝ) (junk2 : Nat → Nat → ℝ) (order j : Nat), i ≤ j → j ≤ order →
    ∃ L v, Dense.tasks t 1 ((p + 1) * (p + 1)) (Duffy.evaluateBilinearForm op.order p t B (op.integrand jr jk p M)
        (SuperSpace.map2surface t space.geo) GS ffq) = some L ∧
      LinearForm.compute junk1 (LinearForm.dirichlet g) space (gaussSquare es order j) = some v ∧
      ∀ ws, ws.Perm L.flatten → ∃ S, Dense.compute junk2 t 1 ((p + 1) * (p + 1)) ws space.trans = some S ∧ S.rows = n ∧ S.cols = n ∧
        SolutionAccurate space els K (gaussSquare es order j) x C i S.at' (fun c => v.at' c 0)

/-- The same with the compressed matrix: `m > i` interpolation points in every direction.  The products with the assembled H2-matrix, in all orders of
the tasks of the assembly and for all schedules of the multiplication, are products with one matrix `S` (that is never formed). -/
def SolvesCompressed (es : EigenSolver) (B : Addr → Util.Ball V3) (P M : Nat) (eta : ℝ) (minLevel : Int) (space : FunctionEval.Space ℝ) (g : V3 → ℝ)
    (K : Set V3) : Prop :=
  ∃ els, elements space.t = some els ∧
  let n := space.trans.cols
  let t := space.t
  let p := space.P
  let op := Operator.laplaceSL
  PositiveDefinite n (galerkinMatrix space els) ∧
  ∃ x, Solves n (galerkinMatrix space els) x (galerkinLoad space els g) ∧
    (∀ y, Solves n (galerkinMatrix space els) y (galerkinLoad space els g) → ∀ c < n, y c = x c) ∧
  ∃ (N : Nat) (C : Nat → ℝ), ∀ i, N ≤ i → ∀ (GS : Nat → Cubature ℝ), RulesFrom es i GS → ∀ (ffq : Addr → Nat → SurfPt),
    (∀ a, IsNode P M a → ∀ k < (GS (Duffy.farfieldDegree op.order p).toNat).size, ffq a k =
      SuperSpace.map2surface t space.geo a ((GS (Duffy.farfieldDegree op.order p).toNat).xi k) (getH t a * (GS (Duffy.farfieldDegree op.order p).toNat).w k)) →
    ∀ (E : MomentEnv) (m : Nat), i < m → E.pts m = chebychevRoots m →
    ∀ ord, gaussIndex m p ≤ ord → E.GL (gaussIndex m p) = gaussLegendre es ord (gaussIndex m p) →
    ∀ (jr jk junk1 : Nat → ℝ) (order j : Nat), i ≤ j → j ≤ order →
    ∃ v S, LinearForm.compute junk1 (LinearForm.dirichlet g) space (gaussSquare es order j) = some v ∧
      (∀ (junk : Nat → Nat → ℝ) (junkE junkT : Nat → Nat → ℝ) (M0 : LeafMem ℝ) (ws : List Nat),
        ws.Perm (List.range (BlockCluster.leafPointers (BlockCluster.initBlockClusterTree t B eta minLevel)).length) →
        ∃ H, initH2Matrix junk junkE junkT M0 op t B eta minLevel p space.trans (SuperSpace.map2surface t space.geo)
            (Duffy.evaluateBilinearForm op.order p t B (op.integrand jr jk p M) (SuperSpace.map2surface t space.geo) GS ffq) E
            (fun E p cl r np => compute2DMoment E 1 p cl r np) m ws = some H ∧
        ∀ (junk : Nat → Nat → ℝ) (Sch : Schedules H) (rhs res : EMat ℝ) (alpha : ℝ),
          rhs.rows = n → res.rows = n → res.cols = rhs.cols →
          ∃ res', run junk H Sch rhs res alpha = some res' ∧ res'.rows = res.rows ∧ res'.cols = res.cols ∧
          ∀ k < n, ∀ c < res.cols, res'.at' k c = res.at' k c + alpha * ∑ d ∈ range n, S k d * rhs.at' d c) ∧
      SolutionAccurate space els K (gaussSquare es order j) x C i S (fun c => v.at' c 0)

end Bembel.Spec
