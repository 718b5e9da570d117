import Mathlib.Analysis.Calculus.ParametricIntervalIntegral
import Mathlib.Analysis.Calculus.ContDiff.Basic
import Mathlib.Analysis.Calculus.ContDiff.Comp
import Mathlib.Analysis.Calculus.ContDiff.Operations
import Mathlib.MeasureTheory.Integral.DominatedConvergence
import Mathlib.MeasureTheory.Integral.IntervalIntegral.FundThmCalculus
import Mathlib.MeasureTheory.Integral.IntervalIntegral.Basic
import Mathlib.Topology.MetricSpace.ProperSpace.Lemmas
/-! # Division of smooth functions by a coordinate -/

namespace Bembel.Singular
open MeasureTheory Set
open scoped ContDiff Topology

variable {E : Type} [NormedAddCommGroup E] [NormedSpace ℝ E] [ProperSpace E]

/-- Derivative of an integral with a smooth parameter. -/
theorem integral_fderiv {F : Type} [NormedAddCommGroup F] [NormedSpace ℝ F] (f : E × ℝ → F) (hf : ContDiff ℝ 1 f) (x : E) :
    HasFDerivAt (fun x => ∫ τ in (0 : ℝ)..1, f (x, τ)) (∫ τ in (0 : ℝ)..1, (fderiv ℝ f (x, τ)).comp (ContinuousLinearMap.inl ℝ E ℝ)) x := by
  have hc : Continuous fun q : E × ℝ => (fderiv ℝ f q).comp (ContinuousLinearMap.inl ℝ E ℝ) :=
    (hf.continuous_fderiv (by norm_num)).clm_comp continuous_const
  obtain ⟨C, hC⟩ := ((isCompact_closedBall x 1).prod (isCompact_Icc (a := (0 : ℝ)) (b := 1))).exists_bound_of_continuousOn hc.continuousOn
  refine intervalIntegral.hasFDerivAt_integral_of_dominated_of_fderiv_le (s := Metric.closedBall x 1) (bound := fun _ => C)
    (F := fun x τ => f (x, τ)) (F' := fun x τ => (fderiv ℝ f (x, τ)).comp (ContinuousLinearMap.inl ℝ E ℝ))
    (Metric.closedBall_mem_nhds x one_pos) ?_ ?_ ?_ ?_ ?_ ?_
  · exact Filter.Eventually.of_forall fun y => (hf.continuous.comp (by fun_prop : Continuous fun τ : ℝ => (y, τ))).aestronglyMeasurable
  · exact (hf.continuous.comp (by fun_prop : Continuous fun τ : ℝ => (x, τ))).intervalIntegrable _ _
  · exact (hc.comp (by fun_prop : Continuous fun τ : ℝ => (x, τ))).aestronglyMeasurable
  · refine Filter.Eventually.of_forall fun τ hτ y hy => hC (y, τ) ⟨hy, ?_⟩
    rw [uIoc_of_le zero_le_one] at hτ
    exact ⟨hτ.1.le, hτ.2⟩
  · exact continuous_const.intervalIntegrable _ _
  · refine Filter.Eventually.of_forall fun τ _ y _ => ?_
    have h1 : HasFDerivAt f (fderiv ℝ f (y, τ)) (y, τ) := (hf.differentiable (by norm_num) _).hasFDerivAt
    have h2 : HasFDerivAt (fun y : E => (y, τ)) (ContinuousLinearMap.inl ℝ E ℝ) y := hasFDerivAt_prodMk_left y τ
    exact h1.comp y h2

theorem integral_contDiff (n : Nat) : ∀ {F : Type} [NormedAddCommGroup F] [NormedSpace ℝ F] (f : E × ℝ → F), ContDiff ℝ n f →
    ContDiff ℝ n fun x => ∫ τ in (0 : ℝ)..1, f (x, τ) := by
  induction n with
  | zero =>
    intro F _ _ f hf
    have hf' : Continuous f := hf.continuous
    exact contDiff_zero.2 (intervalIntegral.continuous_parametric_intervalIntegral_of_continuous' (f := fun x τ => f (x, τ)) (by exact hf') 0 1)
  | succ n ih =>
    intro F _ _ f hf
    have hf' : ContDiff ℝ (n + 1) f := by exact_mod_cast hf
    have key : ContDiff ℝ ((n : WithTop ℕ∞) + 1) fun x => ∫ τ in (0 : ℝ)..1, f (x, τ) := by
      rw [contDiff_succ_iff_hasFDerivAt]
      refine ⟨_, ?_, integral_fderiv f (hf'.of_le (by simp))⟩
      refine ih (fun q => (fderiv ℝ f q).comp (ContinuousLinearMap.inl ℝ E ℝ)) ?_
      exact (hf'.fderiv_right le_rfl).clm_comp contDiff_const
    exact_mod_cast key

theorem integral_smooth {F : Type} [NormedAddCommGroup F] [NormedSpace ℝ F] (f : E × ℝ → F) (hf : ContDiff ℝ ∞ f) :
    ContDiff ℝ ∞ fun x => ∫ τ in (0 : ℝ)..1, f (x, τ) :=
  contDiff_infty.2 fun n => integral_contDiff n f (hf.of_le (by exact_mod_cast le_top))

/-- A smooth function minus its values on the hyperplane `σ = 0` is `σ` times a smooth function. -/
theorem hadamard {F : Type} [NormedAddCommGroup F] [NormedSpace ℝ F] [CompleteSpace F] (σ : E →L[ℝ] ℝ) (e : E) (he : σ e = 1) (f : E → F)
    (hf : ContDiff ℝ ∞ f) : ∃ D : E → F, ContDiff ℝ ∞ D ∧ (∀ p, f p = f (p - σ p • e) + σ p • D p) ∧ ∀ p, σ p = 0 → D p = fderiv ℝ f p e := by
  refine ⟨fun p => ∫ τ in (0 : ℝ)..1, fderiv ℝ f (p - ((1 - τ) * σ p) • e) e, ?_, ?_, ?_⟩
  · refine integral_smooth (fun q : E × ℝ => fderiv ℝ f (q.1 - ((1 - q.2) * σ q.1) • e) e) ?_
    refine ContDiff.clm_apply ?_ contDiff_const
    exact (hf.fderiv_right (by simp)).comp (by fun_prop)
  · intro p
    have hd : ∀ τ : ℝ, HasDerivAt (fun τ : ℝ => f (p - ((1 - τ) * σ p) • e)) (σ p • fderiv ℝ f (p - ((1 - τ) * σ p) • e) e) τ := by
      intro τ
      have h1 : HasFDerivAt f (fderiv ℝ f (p - ((1 - τ) * σ p) • e)) (p - ((1 - τ) * σ p) • e) :=
        (hf.differentiable (by simp) _).hasFDerivAt
      have h2 : HasDerivAt (fun τ : ℝ => p - ((1 - τ) * σ p) • e) (σ p • e) τ := by
        have := ((((hasDerivAt_const τ (1 : ℝ)).sub (hasDerivAt_id τ)).mul_const (σ p)).smul_const e).const_sub p
        have e : (σ p • e : E) = -(((0 - 1) * σ p) • e) := by rw [zero_sub, neg_one_mul, neg_smul, neg_neg]
        rw [e]
        exact this
      have := h1.comp_hasDerivAt τ h2
      rwa [map_smul] at this
    have hc : Continuous fun τ : ℝ => σ p • fderiv ℝ f (p - ((1 - τ) * σ p) • e) e := by
      have := (hf.continuous_fderiv (by simp)).comp (by fun_prop : Continuous fun τ : ℝ => p - ((1 - τ) * σ p) • e)
      exact continuous_const.smul (this.clm_apply continuous_const)
    have := intervalIntegral.integral_eq_sub_of_hasDerivAt (a := 0) (b := 1) (fun τ _ => hd τ) (hc.intervalIntegrable _ _)
    rw [intervalIntegral.integral_smul] at this
    rw [this]
    simp
  · intro p hp
    simp [hp]

end Bembel.Singular
