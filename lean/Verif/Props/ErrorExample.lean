import Verif.Props.ErrorReport
import Verif.Props.ReactionExample
/-! # C95: a surface that meets the hypotheses -/

namespace Bembel.Props
open Finset Mesh Spec Util SuperSpace MeasureTheory FunctionEval
open scoped ContDiff

open Smooth Bembel.Props.Singular in
/-- Two patches of a folded sheet with continuous and discontinuous bilinear splines of level one, the data `y ↦ y 0` and the reference `y ↦ y 1`. -/
example : ∃ (es : EigenSolver) (t : Mesh.Tree ℝ) (T D : EMat ℝ), SolverCorrect es ∧ t.nElements = 8 ∧
    Ansatz.transformationCont (fun _ => 0) (fun _ _ => 0) solver t 1 1 2 1 = some T ∧ Ansatz.transformationDisc (fun _ => 0) (fun _ _ => 0) solver t 1 1 2 1 = some D ∧
    ReportsErrors es ⟨t, 1, sheet, T⟩ (fun y => y 0) ∧ ReportsBestError es ⟨t, 1, sheet, T⟩ (fun y => y 0) ∧
    ReportsBestError es ⟨t, 1, sheet, D⟩ (fun y => y 0) ∧ ReportsReference es 2 1 ⟨t, 1, sheet, T⟩ (fun y => y 0) (fun y => y 1) 1 := by
  obtain ⟨es, hes⟩ := solver_exists
  obtain ⟨t, g1, -, g3, -⟩ := tree_facts (K := ℝ) (fun u v : V3 => decide (u = v)) (fun p j => sheetVertex (sheetIndex p j)) 2 1 (by norm_num)
  obtain ⟨T, hT⟩ := Hypersingular.sheet_cont (fun _ => 0) (fun _ _ => 0) t g1
  obtain ⟨-, D, -, hD, -⟩ := C64_discontinuous _ _ (fun _ => 0) (fun _ _ => 0) solver solver_solves 1 1 2 1 (by norm_num) (by norm_num) le_rfl t g1
  have data : SmoothData 2 sheet fun y => y 0 := fun p _ s _ => contDiffAt_euclidean.1 contDiffAt_id 0
  have ref : SmoothData 2 sheet fun y => y 1 := fun p _ s _ => contDiffAt_euclidean.1 contDiffAt_id 1
  have sm := SingleLayer.smooth_patches 2 sheet sheet_surface
  have rows : T.rows = 1 * ((1 + 1) * (1 + 1) * t.nElements) := by
    rw [WellPosed.cont_rows _ _ _ _ solver solver_solves 1 1 2 1 (by norm_num) (by norm_num) (by norm_num) le_rfl le_rfl sheet_conforming sheet_oriented t g1 T hT, g3]
    ring
  exact ⟨es, t, T, D, hes, by rw [g3]; norm_num, hT, hD,
    C95_errors _ _ 2 1 (by norm_num) sheet sheet_reg sm t g1 es hes _ data T 1 rows,
    C95_continuous _ _ 2 1 (by norm_num) sheet sheet_reg sm t g1 es hes _ data T 1 _ _ solver solver_solves 1 sheet_conforming sheet_oriented
      (by norm_num) (by norm_num) le_rfl le_rfl hT,
    C95_discontinuous _ _ 2 1 (by norm_num) sheet sheet_reg sm t g1 es hes _ data D 1 _ _ solver solver_solves 1 (by norm_num) le_rfl hD,
    C95_beltrami _ _ 2 1 (by norm_num) sheet sheet_reg sm t g1 es hes _ ref T 1 _ _ solver solver_solves 1 sheet_conforming sheet_oriented
      Hypersingular.sheet_connected (by norm_num) (by norm_num) le_rfl le_rfl hT _ data 1 one_pos⟩

end Bembel.Props
