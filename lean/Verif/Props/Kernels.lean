import Mathlib.Analysis.SpecialFunctions.ExpDeriv
import Mathlib.Analysis.Complex.RealDeriv
import Verif.Model.Operators
import Verif.Lemmas.Radial
/-!
# C50, C51, C59: kernels

Reference points: the fundamental solutions `1 / (4 π r)` and `exp(-i k r) / (4 π r)`, Mathlib's derivative and Laplacian.
-/

set_option linter.unusedSectionVars false

namespace Bembel.Props
open Kernel Complex

/-- C50: the kernels are the fundamental solutions, functions of the distance; they are symmetric and invariant under translations. -/
theorem C50_symmetric (k : ℂ) (x y v : V3) :
    laplace x y = 1 / (4 * Real.pi * dist x y) ∧ laplace x y = laplace y x ∧ laplace (x + v) (y + v) = laplace x y ∧
    helmholtz k x y = exp (-I * k * dist x y) / (4 * Real.pi * dist x y) ∧ helmholtz k x y = helmholtz k y x ∧
    helmholtz k (x + v) (y + v) = helmholtz k x y := by
  refine ⟨?_, ?_, ?_, ?_, ?_, ?_⟩
  · rw [laplace, dist_eq_norm, div_div, div_div, mul_assoc]
  · rw [laplace, laplace, norm_sub_rev]
  · rw [laplace, laplace, add_sub_add_right_eq_sub]
  · simp only [helmholtz, dist_eq_norm]
    rw [div_div, div_div, mul_assoc (4 : ℂ)]
  · simp only [helmholtz, norm_sub_rev]
  · simp only [helmholtz, add_sub_add_right_eq_sub]

/-- C50: the adjoint double layer kernel is the double layer kernel with exchanged arguments, the double layer potential kernel
is that of the operator, and for wave number zero the Helmholtz kernels are the Laplace kernels. -/
theorem C50_adjoint (k : ℂ) (x y n : V3) :
    laplaceADL x n y = laplaceDL y x n ∧ helmholtzADL k x n y = helmholtzDL k y x n ∧
    inner ℝ (laplaceDLGrad x y) n = laplaceDL x y n ∧
    helmholtz 0 x y = laplace x y ∧ helmholtzDL 0 x y n = laplaceDL x y n ∧ helmholtzADL 0 x n y = laplaceADL x n y := by
  have e : (inner ℝ (y - x) n : ℝ) = -inner ℝ (x - y) n := by rw [← neg_sub, inner_neg_left]
  refine ⟨?_, ?_, ?_, ?_, ?_, ?_⟩
  · simp only [laplaceADL, laplaceDL, e, norm_sub_rev y x]
  · simp only [helmholtzADL, helmholtzDL, e, norm_sub_rev y x]
  · simp only [laplaceDLGrad, laplaceDL, inner_smul_left]
    simp
    ring
  · simp [helmholtz, laplace]
  · simp [helmholtzDL, laplaceDL]
  · simp [helmholtzADL, laplaceADL]

theorem four_pi : (4 : ℂ) * (Real.pi : ℂ) ≠ 0 := mul_ne_zero (by norm_num) (ofReal_ne_zero.2 Real.pi_ne_zero)

/-- Radial profile of the Helmholtz kernel. -/
theorem profile_deriv (k : ℂ) (r : ℝ) (hr : 0 < r) :
    HasDerivAt (fun r : ℝ => exp (-I * k * r) / 4 / Real.pi / r)
      (exp (-I * k * r) * (-1 - I * k * r) / 4 / Real.pi / (r * r)) r := by
  have h0 : (r : ℂ) ≠ 0 := ofReal_ne_zero.2 hr.ne'
  have h1 : HasDerivAt (fun r : ℝ => (r : ℂ)) 1 r := ofRealCLM.hasDerivAt
  have h2 : HasDerivAt (fun r : ℝ => -I * k * (r : ℂ)) (-I * k) r := by simpa using h1.const_mul (-I * k)
  have h3 := ((h2.cexp.div_const 4).div_const (Real.pi : ℂ)).div h1 h0
  refine h3.congr_deriv ?_
  have := four_pi
  field_simp
  ring

theorem profile_real (r : ℝ) (hr : 0 < r) :
    HasDerivAt (fun r : ℝ => 1 / 4 / Real.pi / r) (-1 / 4 / Real.pi / (r * r)) r := by
  have h := (hasDerivAt_const r (1 / 4 / Real.pi : ℝ)).div (hasDerivAt_id r) hr.ne'
  refine h.congr_deriv ?_
  have := Real.pi_ne_zero
  simp only [id]
  field_simp
  ring

/-- C51 (Laplace): for distinct points the fundamental solution is differentiable in both arguments; its derivative in direction
`v` of the source point is the double layer kernel for the normal `v`, its derivative in direction `v` of the evaluation point is
the adjoint double layer kernel for the normal `v` and the product of `v` with the gradient kernel of the potential. -/
theorem C51_laplace (x y : V3) (h : x ≠ y) :
    (∃ L : V3 →L[ℝ] ℝ, HasFDerivAt (fun y => laplace x y) L y ∧ ∀ v, L v = laplaceDL x y v) ∧
    (∃ L : V3 →L[ℝ] ℝ, HasFDerivAt (fun x => laplace x y) L x ∧ (∀ v, L v = laplaceADL x v y) ∧
      ∀ v, L v = inner ℝ (laplaceSLGrad x y) v) := by
  have hr : 0 < ‖x - y‖ := norm_pos_iff.2 (sub_ne_zero.2 h)
  have hr' : 0 < ‖y - x‖ := norm_pos_iff.2 (sub_ne_zero.2 h.symm)
  have d1 := Radial.hasFDerivAt (fun r : ℝ => 1 / 4 / Real.pi / r) _ y x h (profile_real _ hr)
  have d2 := Radial.hasFDerivAt (fun r : ℝ => 1 / 4 / Real.pi / r) _ x y h.symm (profile_real _ hr')
  have hpi := Real.pi_ne_zero
  refine ⟨⟨_, d2.congr_of_eventuallyEq (Filter.Eventually.of_forall fun z => by simp only [laplace, norm_sub_rev]), ?_⟩,
    ⟨_, d1, ?_, ?_⟩⟩
  · intro v
    show inner ℝ (y - x) v • (1 / ‖y - x‖) • (-1 / 4 / Real.pi / (‖y - x‖ * ‖y - x‖)) = _
    have e : (inner ℝ (y - x) v : ℝ) = -inner ℝ (x - y) v := by rw [← neg_sub, inner_neg_left]
    simp only [laplaceDL, smul_eq_mul, norm_sub_rev y x, e]
    field_simp
  · intro v
    show inner ℝ (x - y) v • (1 / ‖x - y‖) • (-1 / 4 / Real.pi / (‖x - y‖ * ‖x - y‖)) = _
    simp only [laplaceADL, smul_eq_mul]
    field_simp
  · intro v
    show inner ℝ (x - y) v • (1 / ‖x - y‖) • (-1 / 4 / Real.pi / (‖x - y‖ * ‖x - y‖)) = _
    simp only [laplaceSLGrad, inner_smul_left, inner_neg_left, smul_eq_mul, map_div₀, map_one, conj_trivial]
    field_simp

/-- C51 (Helmholtz, Maxwell): the same for every complex wave number; the gradient is that of the Maxwell potential. -/
theorem C51_helmholtz (k : ℂ) (x y : V3) (h : x ≠ y) :
    (∃ L : V3 →L[ℝ] ℂ, HasFDerivAt (fun y => helmholtz k x y) L y ∧ ∀ v, L v = helmholtzDL k x y v) ∧
    (∃ L : V3 →L[ℝ] ℂ, HasFDerivAt (fun x => helmholtz k x y) L x ∧ (∀ v, L v = helmholtzADL k x v y) ∧
      ∀ v, L v = ∑ d, maxwellGrad k x y d * (v d : ℂ)) := by
  have hr : 0 < ‖x - y‖ := norm_pos_iff.2 (sub_ne_zero.2 h)
  have hr' : 0 < ‖y - x‖ := norm_pos_iff.2 (sub_ne_zero.2 h.symm)
  have hc : (‖x - y‖ : ℂ) ≠ 0 := ofReal_ne_zero.2 hr.ne'
  have d1 := Radial.hasFDerivAt (fun r : ℝ => exp (-I * k * r) / 4 / Real.pi / r) _ y x h (profile_deriv k _ hr)
  have d2 := Radial.hasFDerivAt (fun r : ℝ => exp (-I * k * r) / 4 / Real.pi / r) _ x y h.symm (profile_deriv k _ hr')
  have hpi : (Real.pi : ℂ) ≠ 0 := ofReal_ne_zero.2 Real.pi_ne_zero
  refine ⟨⟨_, d2.congr_of_eventuallyEq (Filter.Eventually.of_forall fun z => by simp only [helmholtz, norm_sub_rev]), ?_⟩,
    ⟨_, d1, ?_, ?_⟩⟩
  · intro v
    show inner ℝ (y - x) v • (1 / ‖y - x‖) • (exp (-I * k * ‖y - x‖) * (-1 - I * k * ‖y - x‖) / 4 / Real.pi / (‖y - x‖ * ‖y - x‖)) = _
    have e : (inner ℝ (y - x) v : ℝ) = -inner ℝ (x - y) v := by rw [← neg_sub, inner_neg_left]
    simp only [helmholtzDL, real_smul, norm_sub_rev y x, e]
    push_cast
    field_simp
    ring
  · intro v
    show inner ℝ (x - y) v • (1 / ‖x - y‖) • (exp (-I * k * ‖x - y‖) * (-1 - I * k * ‖x - y‖) / 4 / Real.pi / (‖x - y‖ * ‖x - y‖)) = _
    simp only [helmholtzADL, real_smul]
    push_cast
    field_simp
    ring
  · intro v
    show inner ℝ (x - y) v • (1 / ‖x - y‖) • (exp (-I * k * ‖x - y‖) * (-1 - I * k * ‖x - y‖) / 4 / Real.pi / (‖x - y‖ * ‖x - y‖)) = _
    have e : ((inner ℝ (x - y) v : ℝ) : ℂ) = ∑ d, ((x - y) d : ℂ) * (v d : ℂ) := by
      rw [PiLp.inner_apply]
      push_cast
      refine Finset.sum_congr rfl fun d _ => ?_
      simp [mul_comm]
    simp only [maxwellGrad, real_smul, e, mul_assoc, ← Finset.mul_sum]
    push_cast
    field_simp

/-- C59: away from the singularity the kernels solve the Laplace resp. the Helmholtz equation, in both arguments. -/
theorem C59_pde (k : ℂ) (x y : V3) (h : x ≠ y) :
    Laplacian.laplacian (fun x => laplace x y) x = 0 ∧
    Laplacian.laplacian (fun y => laplace x y) y = 0 ∧
    Laplacian.laplacian (fun x => helmholtz k x y) x = -k ^ 2 * helmholtz k x y ∧
    Laplacian.laplacian (fun y => helmholtz k x y) y = -k ^ 2 * helmholtz k x y := by
  have L : ∀ x y : V3, x ≠ y → Laplacian.laplacian (fun x => laplace x y) x = 0 := by
    intro x y h
    have hr : 0 < ‖x - y‖ := norm_pos_iff.2 (sub_ne_zero.2 h)
    have hpi := Real.pi_ne_zero
    have := Radial.laplacian (fun r : ℝ => 1 / 4 / Real.pi / r) (fun r => -1 / 4 / Real.pi / (r * r))
      (fun r => 3 / 4 / Real.pi / (r * r * (r * r))) y x h profile_real (fun r hr => by
        have h1 : HasDerivAt (fun r : ℝ => r * r * r) (3 * (r * r)) r :=
          (((hasDerivAt_id r).mul (hasDerivAt_id r)).mul (hasDerivAt_id r)).congr_deriv (by simp; ring)
        have h2 := (hasDerivAt_const r (-1 / 4 / Real.pi)).div h1 (by positivity)
        have e : (fun r : ℝ => (1 / r) • (-1 / 4 / Real.pi / (r * r))) = fun r => (-1 / 4 / Real.pi) / (r * r * r) := by
          funext r; rw [smul_eq_mul]; ring
        rw [e]
        refine h2.congr_deriv ?_
        field_simp
        ring) (fun r hr => by
        exact contDiffAt_const.div contDiffAt_id hr.ne')
    show Laplacian.laplacian (fun z => (fun r : ℝ => 1 / 4 / Real.pi / r) ‖z - y‖) x = 0
    rw [this]
    simp only [smul_eq_mul, finrank_euclideanSpace, Fintype.card_fin]
    field_simp
    norm_num
  have H : ∀ x y : V3, x ≠ y → Laplacian.laplacian (fun x => helmholtz k x y) x = -k ^ 2 * helmholtz k x y := by
    intro x y h
    have hr : 0 < ‖x - y‖ := norm_pos_iff.2 (sub_ne_zero.2 h)
    have hc : (‖x - y‖ : ℂ) ≠ 0 := ofReal_ne_zero.2 hr.ne'
    have hpi : (Real.pi : ℂ) ≠ 0 := ofReal_ne_zero.2 Real.pi_ne_zero
    have := Radial.laplacian (fun r : ℝ => exp (-I * k * r) / 4 / Real.pi / r)
      (fun r => exp (-I * k * r) * (-1 - I * k * r) / 4 / Real.pi / (r * r))
      (fun r => exp (-I * k * r) * (3 + 3 * (I * k * r) + (I * k * r) ^ 2) / 4 / Real.pi / ((r : ℂ) * r * (r * r))) y x h (profile_deriv k)
      (fun r hr => by
        have h0 : (r : ℂ) ≠ 0 := ofReal_ne_zero.2 hr.ne'
        have h1 : HasDerivAt (fun r : ℝ => (r : ℂ)) 1 r := ofRealCLM.hasDerivAt
        have h2 : HasDerivAt (fun r : ℝ => -I * k * (r : ℂ)) (-I * k) r := by simpa using h1.const_mul (-I * k)
        have h3 : HasDerivAt (fun r : ℝ => -1 - I * k * (r : ℂ)) (-I * k) r := by
          have := (h1.const_mul (I * k)).const_sub (-1)
          simpa using this
        have h4 : HasDerivAt (fun r : ℝ => (r : ℂ) * r * r) (3 * (r * r)) r :=
          ((h1.mul h1).mul h1).congr_deriv (by simp only [Pi.mul_apply]; ring)
        have h5 := (((h2.cexp.mul h3).div_const 4).div_const (Real.pi : ℂ)).div h4 (by simp [h0])
        have e : (fun r : ℝ => (1 / r) • (exp (-I * k * r) * (-1 - I * k * r) / 4 / Real.pi / (r * r))) =
            fun r : ℝ => exp (-I * k * r) * (-1 - I * k * r) / 4 / Real.pi / ((r : ℂ) * r * r) := by
          funext r; rw [real_smul]; push_cast; ring
        rw [e]
        refine h5.congr_deriv ?_
        simp only [Pi.mul_apply]
        field_simp
        ring) (fun r hr => by
        have h0 : (r : ℂ) ≠ 0 := ofReal_ne_zero.2 hr.ne'
        have : ContDiffAt ℝ 2 (fun r : ℝ => (r : ℂ)) r := ofRealCLM.contDiff.contDiffAt
        have h2 : ContDiffAt ℝ 2 (fun r : ℝ => exp (-I * k * r)) r := (contDiffAt_const.mul this).cexp
        have e : (fun r : ℝ => exp (-I * k * r) / 4 / Real.pi / r) =
            fun r : ℝ => exp (-I * k * r) * (1 / 4 / Real.pi) * ((r⁻¹ : ℝ) : ℂ) := by
          funext r; push_cast; ring
        rw [e]
        exact (h2.mul contDiffAt_const).mul (ofRealCLM.contDiff.contDiffAt.comp r (contDiffAt_inv ℝ hr.ne')))
    show Laplacian.laplacian (fun z => (fun r : ℝ => exp (-I * k * r) / 4 / Real.pi / r) ‖z - y‖) x = _
    rw [this]
    simp only [real_smul, finrank_euclideanSpace, Fintype.card_fin, helmholtz]
    push_cast
    field_simp
    ring_nf
    rw [I_sq]
    ring
  refine ⟨L x y h, ?_, H x y h, ?_⟩
  · simp only [fun y => (C50_symmetric k x y 0).2.1]
    exact L y x h.symm
  · simp only [fun y => (C50_symmetric k x y 0).2.2.2.2.1]
    exact H y x h.symm

/-- Distinct points exist. -/
example : (0 : V3) ≠ !₂[1, 0, 0] := by
  intro h
  have := congrFun (congrArg (WithLp.ofLp) h) 0
  simp at this

end Bembel.Props
