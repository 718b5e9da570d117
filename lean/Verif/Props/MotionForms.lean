import Verif.Lemmas.MotionForms
/-! # C84: operators, right hand sides and potentials do not depend on the position of the surface -/

namespace Bembel.Props
open Mesh Spec SuperSpace

/-! ## Operators, linear forms, potentials -/

/-- C84: the integrands and far field kernels of all boundary integral operators are invariant. -/
theorem C84_operators (m : Motion) (k : ℂ) : m.Invariant Operator.laplaceSL ∧ m.Invariant Operator.laplaceDL ∧
    m.Invariant Operator.laplaceADL ∧ m.Invariant Operator.laplaceHyp ∧ m.Invariant (Operator.helmholtzSL k) ∧
    m.Invariant (Operator.helmholtzDL k) ∧ m.Invariant (Operator.helmholtzADL k) ∧ m.Invariant (Operator.helmholtzHyp k) ∧
    m.Invariant (Operator.maxwellSL k) :=
  ⟨m.laplaceSL, m.laplaceDL, m.laplaceADL, m.laplaceHyp, m.helmholtzSL k, m.helmholtzDL k, m.helmholtzADL k, m.helmholtzHyp k, m.maxwellSL k⟩

open FunctionEval

/-- C84: mass matrix and Laplace-Beltrami matrix are the same. -/
theorem C84_local (m : Motion) (junk : Nat → ℝ) (s : Space ℝ) (Q : Cubature ℝ) :
    LocalOperator.compute junk LocalOperator.identity (m.space s) Q =
        LocalOperator.compute junk LocalOperator.identity s Q ∧
      LocalOperator.compute junk LocalOperator.laplaceBeltrami (m.space s) Q =
        LocalOperator.compute junk LocalOperator.laplaceBeltrami s Q :=
  ⟨m.localOperator_moved junk _ (m.identity_moved junk) s Q, m.localOperator_moved junk _ (m.laplaceBeltrami_moved junk) s Q⟩

/-- C84: the right hand sides for moved data are the same: a function with `g' (Q x + b) = g x` for the Dirichlet trace, a vector field
with `G' (Q x + b) = Q (G x)` for the Neumann trace and both tangential traces. -/
theorem C84_linear_form {R : Type} [Field R] [Algebra ℝ R] (m : Motion) (junk : Nat → R) (s : Space R) (Q : Cubature ℝ) (g g' : V3 → R)
    (hg : ∀ x, g' (m.pos x) = g x) (G G' : V3 → Fin 3 → R) (hG : ∀ x k, G' (m.pos x) k = ∑ l, algebraMap ℝ R (m.Q k l) * G x l)
    (cj : R →ₐ[ℝ] R) :
    LinearForm.compute junk (LinearForm.dirichlet g') (m.space s) Q =
        LinearForm.compute junk (LinearForm.dirichlet g) s Q ∧
      LinearForm.compute junk (LinearForm.neumann G') (m.space s) Q =
        LinearForm.compute junk (LinearForm.neumann G) s Q ∧
      LinearForm.compute junk (LinearForm.tangential cj G') (m.space s) Q =
        LinearForm.compute junk (LinearForm.tangential cj G) s Q ∧
      LinearForm.compute junk (LinearForm.rotatedTangential cj G') (m.space s) Q =
        LinearForm.compute junk (LinearForm.rotatedTangential cj G) s Q := by
  have hG' : ∀ x, G' (m.pos x) = m.rotR (G x) := fun x => funext fun k => hG x k
  have h1 := m.linearForm_moved junk (LinearForm.dirichlet g) (LinearForm.dirichlet g') rfl (m.dirichlet_moved junk g g' hg) s Q
  have h2 := m.linearForm_moved junk (LinearForm.neumann G) (LinearForm.neumann G') rfl (m.neumann_moved junk G G' hG') s Q
  have h3 := m.linearForm_moved junk (LinearForm.tangential cj G) (LinearForm.tangential cj G') rfl (m.tangential_moved junk cj G G' hG') s Q
  have h4 := m.linearForm_moved junk (LinearForm.rotatedTangential cj G) (LinearForm.rotatedTangential cj G') rfl
    (m.rotatedTangential_moved junk cj G G' hG') s Q
  exact ⟨h1, h2, h3, h4⟩

/-- C84: scalar potentials at moved points are the same, for every schedule. -/
theorem C84_potential_laplace {R : Type} [Field R] [Algebra ℝ R] (m : Motion) (junk : Nat → R) (e : Evaluator R) (Q : Cubature ℝ) {n : Nat}
    (points : Fin n → V3) {T : Nat} (sched : List (Fin T)) :
    Potential.evaluate junk (Potential.singleLayerReal Kernel.laplace) (m.evaluator e) Q (fun i => m.pos (points i)) sched =
        Potential.evaluate junk (Potential.singleLayerReal Kernel.laplace) e Q points sched ∧
      Potential.evaluate junk Potential.laplaceDL (m.evaluator e) Q (fun i => m.pos (points i)) sched =
        Potential.evaluate junk Potential.laplaceDL e Q points sched ∧
      Potential.evaluate junk Potential.laplaceSLGrad (m.evaluator e) Q (fun i => m.pos (points i)) sched =
        (Potential.evaluate junk Potential.laplaceSLGrad e Q points sched).map fun u i (k : Fin 3) =>
          ∑ l : Fin 3, algebraMap ℝ R (m.Q k l) * u i l := by
  refine ⟨?_, ?_, ?_⟩
  · refine (m.potential_moved junk (Potential.singleLayerReal Kernel.laplace) e (AddMonoidHom.id _) ?_ Q points sched).trans (Option.map_id' ..)
    intro a x p
    simp only [Potential.singleLayerReal, m.evaluate_moved]
    simp only [Motion.point, m.cross_rot, m.norm_rot, m.laplace_pos]
    rfl
  · refine (m.potential_moved junk Potential.laplaceDL e (AddMonoidHom.id _) ?_ Q points sched).trans (Option.map_id' ..)
    intro a x p
    simp only [Potential.laplaceDL, m.evaluate_moved]
    simp only [Motion.point, m.cross_rot, Kernel.laplaceDLGrad, m.pos_sub, m.norm_rot, ← m.rot_smul, m.inner_rot]
    rfl
  · refine m.potential_moved junk Potential.laplaceSLGrad e m.rotHom ?_ Q points sched
    intro a x p
    simp only [Potential.laplaceSLGrad, m.evaluate_moved]
    cases FunctionEval.evaluate junk e a p with
    | none => rfl
    | some u =>
      simp only [Option.bind_eq_bind, Option.bind_some, Option.map_some]
      congr 1
      funext (k : Fin 3)
      have hk : Kernel.laplaceSLGrad (m.pos x) (m.pos p.f) = m.rot (Kernel.laplaceSLGrad x p.f) := by
        simp only [Kernel.laplaceSLGrad, m.pos_sub, m.norm_rot, ← m.rot_neg, ← m.rot_smul]
      simp only [Motion.point, m.cross_rot, m.norm_rot, hk]
      generalize Kernel.laplaceSLGrad x p.f = g
      refine (dif_pos k.2).trans ?_
      simp only [Fin.eta, m.rot_apply, map_add, map_mul]
      refine Eq.trans ?_ (m.rotHom_apply _ k).symm
      simp
      ring

/-- C84: the potentials of Helmholtz and Maxwell problems; vector fields are rotated. -/
theorem C84_potential_waves (m : Motion) (κ : ℂ) (junk : Nat → ℂ) (e : Evaluator ℂ) (Q : Cubature ℝ) {n : Nat}
    (points : Fin n → V3) {T : Nat} (sched : List (Fin T)) :
    Potential.evaluate junk (Potential.helmholtzSL κ) (m.evaluator e) Q (fun i => m.pos (points i)) sched =
        Potential.evaluate junk (Potential.helmholtzSL κ) e Q points sched ∧
      Potential.evaluate junk (Potential.helmholtzDL κ) (m.evaluator e) Q (fun i => m.pos (points i)) sched =
        Potential.evaluate junk (Potential.helmholtzDL κ) e Q points sched ∧
      Potential.evaluate junk (Potential.maxwellSL κ) (m.evaluator e) Q (fun i => m.pos (points i)) sched =
        (Potential.evaluate junk (Potential.maxwellSL κ) e Q points sched).map fun u i (k : Fin 3) =>
          ∑ l : Fin 3, (m.Q k l : ℂ) * u i l := by
  refine ⟨?_, ?_, ?_⟩
  · refine (m.potential_moved junk (Potential.helmholtzSL κ) e (AddMonoidHom.id _) ?_ Q points sched).trans (Option.map_id' ..)
    intro a x p
    simp only [Potential.helmholtzSL, m.evaluate_moved]
    simp only [Motion.point, m.cross_rot, m.norm_rot, m.helmholtz_pos]
    rfl
  · refine (m.potential_moved junk (Potential.helmholtzDL κ) e (AddMonoidHom.id _) ?_ Q points sched).trans (Option.map_id' ..)
    intro a x p
    simp only [Potential.helmholtzDL, m.evaluate_moved]
    simp only [Motion.point, m.cross_rot, Kernel.helmholtzDL, m.pos_sub, m.norm_rot, m.inner_rot]
    rfl
  · refine m.potential_moved junk (Potential.maxwellSL κ) e m.rotHom ?_ Q points sched
    intro a x p
    simp only [Potential.maxwellSL, m.evaluateVector_moved, m.evaluateDiv_moved]
    cases evaluateVector junk e a p with
    | none => rfl
    | some u =>
    cases evaluateDiv junk e a p with
    | none => rfl
    | some dv =>
      simp only [Option.bind_eq_bind, Option.bind_some, Option.map_some]
      congr 1
      funext (k : Fin 3)
      have hk : ∀ d, Kernel.maxwellGrad κ (m.pos x) (m.pos p.f) d = (m.Q d 0 : ℂ) * Kernel.maxwellGrad κ x p.f 0 +
          (m.Q d 1 : ℂ) * Kernel.maxwellGrad κ x p.f 1 + (m.Q d 2 : ℂ) * Kernel.maxwellGrad κ x p.f 2 := by
        intro d
        simp only [Kernel.maxwellGrad, m.pos_sub, m.norm_rot, m.rot_apply, Complex.ofReal_add, Complex.ofReal_mul]
        ring
      simp only [Motion.point, m.helmholtz_pos, hk, Motion.rotR]
      generalize Kernel.maxwellGrad κ x p.f = g
      generalize Kernel.helmholtz κ x p.f = h
      refine (dif_pos k.2).trans ?_
      simp only [Fin.eta]
      refine Eq.trans ?_ (m.rotHom_apply _ k).symm
      rw [Fin.sum_univ_three]
      simp
      ring

end Bembel.Props
