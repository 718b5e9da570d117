import Mathlib.MeasureTheory.Integral.Bochner.SumMeasure
import Mathlib.MeasureTheory.Integral.Bochner.ContinuousLinearMap
import Mathlib.MeasureTheory.Integral.Prod
import Verif.Lemmas.DuffyMeasure
import Verif.Spec.Duffy
/-! # The substitutions for integrable functions with values in a Banach space -/

namespace Bembel
namespace Duffy
open MeasureTheory Set ENNReal Props

/-- Lebesgue measure on the cube. -/
noncomputable def μ4 : Measure PointPair := volume.restrict Cube

theorem μ4_eq : μ4 = (μ1.prod μ1).prod (μ1.prod μ1) := by
  have e : μ1 = volume.restrict (Icc 0 1) := Measure.restrict_congr_set Ioc_ae_eq_Icc
  rw [e, Measure.prod_restrict, Measure.prod_restrict, Icc_prod_Icc, Icc_prod_Icc]
  rfl

theorem lint_cube {F : PointPair → ℝ≥0∞} (hF : Measurable F) :
    ∫⁻ p, F p ∂μ4 = I4 fun q => F ((q.1, q.2.1), (q.2.2.1, q.2.2.2)) := by
  rw [μ4_eq, lintegral_prod _ hF.aemeasurable, lintegral_prod _ (by
    exact (hF.lintegral_prod_right').aemeasurable)]
  unfold I4
  refine lintegral_congr fun x => lintegral_congr fun y => ?_
  exact lintegral_prod _ (by fun_prop)

theorem mem_ae : ∀ᵐ p ∂μ4, p ∈ Cube := ae_restrict_mem measurableSet_Icc

theorem mem_cube {p : PointPair} : p ∈ Cube ↔ ((0 ≤ p.1.1 ∧ 0 ≤ p.1.2) ∧ 0 ≤ p.2.1 ∧ 0 ≤ p.2.2) ∧
    (p.1.1 ≤ 1 ∧ p.1.2 ≤ 1) ∧ p.2.1 ≤ 1 ∧ p.2.2 ≤ 1 := Iff.rfl

variable {E : Type} [NormedAddCommGroup E] [NormedSpace ℝ E]

/-- A substitution rule for nonnegative functions: `n` pieces with weights `w k` and maps `Φ k`. -/
structure Subst {n : Nat} (w : Fin n → PointPair → ℝ) (Φ : Fin n → PointPair → PointPair) : Prop where
  hw : ∀ k, Measurable (w k)
  hΦ : ∀ k, Measurable (Φ k)
  h0 : ∀ k, ∀ p ∈ Cube, 0 ≤ w k p
  h : ∀ F : PointPair → ℝ≥0∞, Measurable F → ∫⁻ p, F p ∂μ4 = ∫⁻ p, ∑ k, ENNReal.ofReal (w k p) * F (Φ k p) ∂μ4

/-- The measure as the sum of the images of the pieces. -/
theorem Subst.measure {n : Nat} {w : Fin n → PointPair → ℝ} {Φ : Fin n → PointPair → PointPair} (S : Subst w Φ) :
    μ4 = Measure.sum fun k => Measure.map (Φ k) (μ4.withDensity fun p => ENNReal.ofReal (w k p)) := by
  obtain ⟨hw, hΦ, h0, h⟩ := S
  refine Measure.ext fun s hs => ?_
  have e := h (s.indicator 1) (measurable_one.indicator hs)
  rw [lintegral_indicator_one hs] at e
  rw [e, Measure.sum_apply _ hs, tsum_fintype, lintegral_finsetSum _ fun k _ => by
    exact (hw k).ennreal_ofReal.mul ((measurable_one.indicator hs).comp (hΦ k))]
  refine Finset.sum_congr rfl fun k _ => ?_
  rw [Measure.map_apply (hΦ k) hs, withDensity_apply _ (hΦ k hs), ← lintegral_indicator (hΦ k hs)]
  refine lintegral_congr fun p => ?_
  by_cases hp : Φ k p ∈ s <;> simp [indicator, hp]

/-- It is a substitution rule for integrable functions. -/
theorem Subst.integral {n : Nat} {w : Fin n → PointPair → ℝ} {Φ : Fin n → PointPair → PointPair} (S : Subst w Φ)
    (F : PointPair → E) (hF : Integrable F μ4) :
    Integrable (fun p => ∑ k, w k p • F (Φ k p)) μ4 ∧ ∫ p, F p ∂μ4 = ∫ p, ∑ k, w k p • F (Φ k p) ∂μ4 := by
  have hm := S.measure
  obtain ⟨hw, hΦ, h0, h⟩ := S
  have hF' := hF
  rw [hm] at hF'
  have hk : ∀ k, Integrable F (Measure.map (Φ k) (μ4.withDensity fun p => ENNReal.ofReal (w k p))) :=
    fun k => hF'.mono_measure (Measure.le_sum _ k)
  have hk2 : ∀ k, Integrable (fun p => w k p • F (Φ k p)) μ4 := by
    intro k
    have a := (integrable_map_measure (hk k).1 (hΦ k).aemeasurable).1 (hk k)
    have b := (integrable_withDensity_iff_integrable_smul' (hw k).ennreal_ofReal
      (Filter.Eventually.of_forall fun _ => ENNReal.ofReal_lt_top)).1 a
    refine b.congr ?_
    filter_upwards [mem_ae] with p hp
    simp [ENNReal.toReal_ofReal (h0 k p hp)]
  refine ⟨integrable_finset_sum _ fun k _ => hk2 k, ?_⟩
  conv_lhs => rw [hm]
  rw [integral_sum_measure hF', tsum_fintype, integral_finset_sum _ fun k _ => hk2 k]
  refine Finset.sum_congr rfl fun k _ => ?_
  rw [integral_map (hΦ k).aemeasurable (hk k).1, integral_withDensity_eq_integral_toReal_smul (hw k).ennreal_ofReal
      (Filter.Eventually.of_forall fun _ => ENNReal.ofReal_lt_top)]
  refine integral_congr_ae ?_
  filter_upwards [mem_ae] with p hp
  simp [ENNReal.toReal_ofReal (h0 k p hp)]

/-- A measurable function is integrable if its pieces are bounded. -/
theorem Subst.bounded {n : Nat} {w : Fin n → PointPair → ℝ} {Φ : Fin n → PointPair → PointPair} (S : Subst w Φ)
    (F : PointPair → E) (hF : AEStronglyMeasurable F μ4) (hb : ∀ k, ∃ C, ∀ᵐ p ∂μ4, ‖w k p • F (Φ k p)‖ ≤ C) : Integrable F μ4 := by
  have hm := S.measure
  obtain ⟨hw, hΦ, h0, h⟩ := S
  have hF' := hF
  rw [hm] at hF' ⊢
  have hk : ∀ k, AEStronglyMeasurable F (Measure.map (Φ k) (μ4.withDensity fun p => ENNReal.ofReal (w k p))) :=
    fun k => hF'.mono_measure (Measure.le_sum _ k)
  have : IsFiniteMeasure μ4 := ⟨by unfold μ4; rw [Measure.restrict_apply_univ]; exact isCompact_Icc.measure_lt_top⟩
  rw [Measure.sum_fintype, integrable_finset_sum_measure]
  intro k _
  rw [integrable_map_measure (hk k) (hΦ k).aemeasurable, integrable_withDensity_iff_integrable_smul' (hw k).ennreal_ofReal
      (Filter.Eventually.of_forall fun _ => ENNReal.ofReal_lt_top)]
  obtain ⟨C, hC⟩ := hb k
  have hae : (fun p => (ENNReal.ofReal (w k p)).toReal • (F ∘ Φ k) p) =ᵐ[μ4] fun p => w k p • F (Φ k p) := by
    filter_upwards [mem_ae] with p hp
    simp [ENNReal.toReal_ofReal (h0 k p hp)]
  refine Integrable.congr ?_ hae.symm
  refine Integrable.of_bound ?_ C hC
  have m1 := (hk k).comp_aemeasurable (hΦ k).aemeasurable
  have m2 := (aestronglyMeasurable_withDensity_iff (E := E) (μ := μ4) (f := fun p => (w k p).toNNReal) (hw k).real_toNNReal).1 m1
  refine m2.congr ?_
  filter_upwards [mem_ae] with p hp
  simp only [Function.comp, NNReal.smul_def, Real.coe_toNNReal _ (h0 k p hp)]

/-- The weights and maps of the three substitutions. -/
def w2 : Fin 8 → PointPair → ℝ := fun _ p => p.1.1 * ((1 - p.1.1) * (1 - p.1.1 * p.1.2))
def a1 (p : PointPair) : ℝ := p.2.1 * (1 - p.1.1)
def b1 (p : PointPair) : ℝ := p.2.1 * (1 - p.1.1) + p.1.1
def a2 (p : PointPair) : ℝ := p.2.2 * (1 - p.1.1 * p.1.2)
def b2 (p : PointPair) : ℝ := p.2.2 * (1 - p.1.1 * p.1.2) + p.1.1 * p.1.2
def Φ2 : Fin 8 → PointPair → PointPair := ![fun p => ((a1 p, a2 p), (b1 p, b2 p)), fun p => ((b1 p, b2 p), (a1 p, a2 p)),
    fun p => ((a1 p, b2 p), (b1 p, a2 p)), fun p => ((b1 p, a2 p), (a1 p, b2 p)), fun p => ((a2 p, a1 p), (b2 p, b1 p)),
    fun p => ((b2 p, b1 p), (a2 p, a1 p)), fun p => ((a2 p, b1 p), (b2 p, a1 p)), fun p => ((b2 p, a1 p), (a2 p, b1 p))]

theorem sub2 : Subst w2 Φ2 := by
  have ma1 : Measurable a1 := by unfold a1; fun_prop
  have ma2 : Measurable a2 := by unfold a2; fun_prop
  have mb1 : Measurable b1 := by unfold b1; fun_prop
  have mb2 : Measurable b2 := by unfold b2; fun_prop
  have hw : ∀ k, Measurable (w2 k) := fun k => by unfold w2; fun_prop
  have hΦ : ∀ k, Measurable (Φ2 k) := by
    intro k
    fin_cases k <;> (simp only [Φ2]; dsimp; fun_prop)
  refine ⟨hw, hΦ, ?_, ?_⟩
  · intro k p hp
    obtain ⟨⟨⟨h1, h2⟩, h3, h4⟩, ⟨h5, h6⟩, h7, h8⟩ := mem_cube.1 hp
    have : p.1.1 * p.1.2 ≤ 1 := by nlinarith
    exact mul_nonneg h1 (mul_nonneg (by linarith) (by linarith))
  · intro G hG
    rw [lint_cube hG, lint_cube]
    · refine (duffy2 hG).trans (lintegral_congr fun s => lintegral_congr fun t => lintegral_congr fun u =>
        lintegral_congr fun v => ?_)
      simp only [Fin.sum_univ_eight, w2, ← mul_add, ← mul_assoc]
      rfl
    · exact Finset.measurable_sum _ fun k _ => (hw k).ennreal_ofReal.mul (hG.comp (hΦ k))

theorem eq2 (F : PointPair → E) : transformed2 F = fun p => ∑ k, w2 k p • F (Φ2 k p) := by
  funext p
  simp only [Fin.sum_univ_eight, w2, ← smul_add, ← mul_assoc]
  rfl

theorem trans2 (F : PointPair → E) (hF : Integrable F μ4) :
    Integrable (transformed2 F) μ4 ∧ ∫ p, F p ∂μ4 = ∫ p, transformed2 F p ∂μ4 := by
  rw [eq2]
  exact sub2.integral F hF

def w3 : Fin 6 → PointPair → ℝ := ![fun p => p.1.2 ^ 2 * (1 - p.1.2), fun p => p.1.2 ^ 2 * (1 - p.1.2), fun p => p.1.2 ^ 2 * (1 - p.1.2 * p.2.1),
  fun p => p.1.2 ^ 2 * (1 - p.1.2 * p.2.1), fun p => p.1.2 ^ 2 * (1 - p.1.2 * p.2.1), fun p => p.1.2 ^ 2 * (1 - p.1.2 * p.2.1)]
def t1 (p : PointPair) : ℝ := p.1.1 * (1 - p.1.2)
def t2 (p : PointPair) : ℝ := (1 - p.1.1) * (1 - p.1.2)
def e1 (p : PointPair) : ℝ := p.1.2 * p.2.1
def e2 (p : PointPair) : ℝ := p.1.2 * p.2.2
def t3 (p : PointPair) : ℝ := p.1.1 * (1 - p.1.2 * p.2.1)
def t4 (p : PointPair) : ℝ := (1 - p.1.1) * (1 - p.1.2 * p.2.1)
def Φ3 : Fin 6 → PointPair → PointPair := ![fun p => ((t1 p, e1 p), (t2 p, e2 p)), fun p => ((1 - t1 p, e1 p), (1 - t2 p, e2 p)),
    fun p => ((t3 p, p.1.2), (t4 p, e2 p)), fun p => ((1 - t3 p, p.1.2), (1 - t4 p, e2 p)),
    fun p => ((t4 p, e2 p), (t3 p, p.1.2)), fun p => ((1 - t4 p, e2 p), (1 - t3 p, p.1.2))]

theorem sub3 : Subst w3 Φ3 := by
  have mt1 : Measurable t1 := by unfold t1; fun_prop
  have mt2 : Measurable t2 := by unfold t2; fun_prop
  have mt3 : Measurable t3 := by unfold t3; fun_prop
  have mt4 : Measurable t4 := by unfold t4; fun_prop
  have me1 : Measurable e1 := by unfold e1; fun_prop
  have me2 : Measurable e2 := by unfold e2; fun_prop
  have hw : ∀ k, Measurable (w3 k) := by
    intro k
    fin_cases k <;> (simp only [w3]; dsimp; fun_prop)
  have hΦ : ∀ k, Measurable (Φ3 k) := by
    intro k
    fin_cases k <;> (simp only [Φ3]; dsimp; fun_prop)
  refine ⟨hw, hΦ, ?_, ?_⟩
  · intro k p hp
    obtain ⟨⟨⟨h1, h2⟩, h3, h4⟩, ⟨h5, h6⟩, h7, h8⟩ := mem_cube.1 hp
    have : p.1.2 * p.2.1 ≤ 1 := by nlinarith
    have g1 : 0 ≤ p.1.2 ^ 2 * (1 - p.1.2) := mul_nonneg (by positivity) (by linarith)
    have g2 : 0 ≤ p.1.2 ^ 2 * (1 - p.1.2 * p.2.1) := mul_nonneg (by positivity) (by linarith)
    fin_cases k <;> assumption
  · intro G hG
    rw [lint_cube hG, lint_cube]
    · refine (duffy3 hG).trans (lintegral_congr fun s => lintegral_congr fun t => lintegral_congr fun u =>
        lintegral_congr fun v => ?_)
      simp only [Fin.sum_univ_six]
      simp only [w3, Φ3, t1, t2, t3, t4, e1, e2, Matrix.cons_val]
      ring
    · exact Finset.measurable_sum _ fun k _ => (hw k).ennreal_ofReal.mul (hG.comp (hΦ k))

theorem eq3 (F : PointPair → E) : transformed3 F = fun p => ∑ k, w3 k p • F (Φ3 k p) := by
  funext p
  simp only [Fin.sum_univ_six]
  simp only [w3, Φ3, t1, t2, t3, t4, e1, e2, transformed3, Matrix.cons_val]
  module

theorem trans3 (F : PointPair → E) (hF : Integrable F μ4) :
    Integrable (transformed3 F) μ4 ∧ ∫ p, F p ∂μ4 = ∫ p, transformed3 F p ∂μ4 := by
  rw [eq3]
  exact sub3.integral F hF

def w4 : Fin 4 → PointPair → ℝ := fun _ p => p.1.1 ^ 3
def Φ4 : Fin 4 → PointPair → PointPair := ![fun p => ((p.1.1, p.1.1 * p.1.2), (p.1.1 * p.2.1, p.1.1 * p.2.2)),
    fun p => ((p.1.1 * p.1.2, p.1.1), (p.1.1 * p.2.1, p.1.1 * p.2.2)),
    fun p => ((p.1.1 * p.2.1, p.1.1 * p.2.2), (p.1.1, p.1.1 * p.1.2)),
    fun p => ((p.1.1 * p.2.1, p.1.1 * p.2.2), (p.1.1 * p.1.2, p.1.1))]

theorem sub4 : Subst w4 Φ4 := by
  have hw : ∀ k, Measurable (w4 k) := fun k => by unfold w4; fun_prop
  have hΦ : ∀ k, Measurable (Φ4 k) := by
    intro k
    fin_cases k <;> (simp only [Φ4]; dsimp; fun_prop)
  refine ⟨hw, hΦ, ?_, ?_⟩
  · intro k p hp
    obtain ⟨⟨⟨h1, h2⟩, h3, h4⟩, ⟨h5, h6⟩, h7, h8⟩ := mem_cube.1 hp
    exact pow_nonneg h1 3
  · intro G hG
    rw [lint_cube hG, lint_cube]
    · refine (duffy4 hG).trans (lintegral_congr fun s => lintegral_congr fun t => lintegral_congr fun u =>
        lintegral_congr fun v => ?_)
      simp only [Fin.sum_univ_four, w4, ← mul_add]
      rfl
    · exact Finset.measurable_sum _ fun k _ => (hw k).ennreal_ofReal.mul (hG.comp (hΦ k))

theorem eq4 (F : PointPair → E) : transformed4 F = fun p => ∑ k, w4 k p • F (Φ4 k p) := by
  funext p
  simp only [Fin.sum_univ_four, w4, ← smul_add]
  rfl

theorem trans4 (F : PointPair → E) (hF : Integrable F μ4) :
    Integrable (transformed4 F) μ4 ∧ ∫ p, F p ∂μ4 = ∫ p, transformed4 F p ∂μ4 := by
  rw [eq4]
  exact sub4.integral F hF

end Duffy
end Bembel
