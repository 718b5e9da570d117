import Verif.Props.BeltramiSystem
import Verif.Props.NeumannExample
/-! # C94: a surface that meets the hypotheses -/

namespace Bembel.Props
open Finset Mesh Spec Util SuperSpace MeasureTheory FunctionEval
open scoped ContDiff

open Smooth Bembel.Props.Singular in
/-- Two patches of a folded sheet with continuous bilinear splines of level one, and the data `y ↦ y 0`. -/
example : ∃ (es : EigenSolver) (t : Mesh.Tree ℝ) (T : EMat ℝ), SolverCorrect es ∧ t.nElements = 8 ∧
    Ansatz.transformationCont (fun _ => 0) (fun _ _ => 0) solver t 1 1 2 1 = some T ∧ SolvesBeltrami es 2 1 ⟨t, 1, sheet, T⟩ (fun y => y 0) 1 := by
  obtain ⟨es, hes⟩ := solver_exists
  obtain ⟨t, g1, -, g3, -⟩ := tree_facts (K := ℝ) (fun u v : V3 => decide (u = v)) (fun p j => sheetVertex (sheetIndex p j)) 2 1 (by norm_num)
  obtain ⟨T, hT⟩ := Hypersingular.sheet_cont (fun _ => 0) (fun _ _ => 0) t g1
  have data : SmoothData 2 sheet fun y => y 0 := fun p _ s _ => contDiffAt_euclidean.1 contDiffAt_id 0
  exact ⟨es, t, T, hes, by rw [g3]; norm_num, hT, C94_beltrami _ _ 2 1 (by norm_num) sheet sheet_reg (SingleLayer.smooth_patches 2 sheet sheet_surface)
    sheet_conforming sheet_oriented Hypersingular.sheet_connected t g1 _ _ solver solver_solves 1 1 (by norm_num) (by norm_num) le_rfl le_rfl T hT es hes _ data 1 one_pos⟩

end Bembel.Props
