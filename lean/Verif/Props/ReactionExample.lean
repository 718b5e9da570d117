import Verif.Props.ReactionDiffusion
import Verif.Props.NeumannExample
/-! # C93: a surface that meets the hypotheses -/

namespace Bembel.Props
open Finset Mesh Spec Util SuperSpace MeasureTheory FunctionEval
open scoped ContDiff

open Smooth Bembel.Props.Singular in
/-- Two patches of a folded sheet with continuous and discontinuous bilinear splines of level one, and the data `y ↦ y 0`. -/
example : ∃ (es : EigenSolver) (t : Mesh.Tree ℝ) (T D : EMat ℝ), SolverCorrect es ∧ t.nElements = 8 ∧
    Ansatz.transformationCont (fun _ => 0) (fun _ _ => 0) solver t 1 1 2 1 = some T ∧ Ansatz.transformationDisc (fun _ => 0) (fun _ _ => 0) solver t 1 1 2 1 = some D ∧
    ProjectsData es 2 1 ⟨t, 1, sheet, T⟩ (fun y => y 0) ∧ SolvesReaction es 2 1 ⟨t, 1, sheet, T⟩ (fun y => y 0) 1 3 ∧
    ProjectsData es 2 1 ⟨t, 1, sheet, D⟩ (fun y => y 0) := by
  obtain ⟨es, hes⟩ := solver_exists
  obtain ⟨t, g1, -, g3, -⟩ := tree_facts (K := ℝ) (fun u v : V3 => decide (u = v)) (fun p j => sheetVertex (sheetIndex p j)) 2 1 (by norm_num)
  obtain ⟨T, hT⟩ := Hypersingular.sheet_cont (fun _ => 0) (fun _ _ => 0) t g1
  obtain ⟨-, D, -, hD, -⟩ := C64_discontinuous _ _ (fun _ => 0) (fun _ _ => 0) solver solver_solves 1 1 2 1 (by norm_num) (by norm_num) le_rfl t g1
  have data : SmoothData 2 sheet fun y => y 0 := fun p _ s _ => contDiffAt_euclidean.1 contDiffAt_id 0
  have sm := SingleLayer.smooth_patches 2 sheet sheet_surface
  have c := C93_continuous _ _ 2 1 (by norm_num) sheet sheet_reg sm t g1 _ _ solver solver_solves 1 1 es hes _ data T sheet_conforming sheet_oriented
    (by norm_num) (by norm_num) le_rfl le_rfl hT
  exact ⟨es, t, T, D, hes, by rw [g3]; norm_num, hT, hD, c.1, c.2 1 3 (by norm_num) (by norm_num),
    C93_discontinuous _ _ 2 1 (by norm_num) sheet sheet_reg sm t g1 _ _ solver solver_solves 1 1 es hes _ data D (by norm_num) le_rfl hD⟩

end Bembel.Props
