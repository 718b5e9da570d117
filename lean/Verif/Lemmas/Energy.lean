import Mathlib.Analysis.SpecialFunctions.Gaussian.FourierTransform
import Mathlib.Analysis.InnerProductSpace.PiL2
import Mathlib.MeasureTheory.Integral.Prod
import Verif.Model.SurfacePoint
/-! # The energy of the Coulomb kernel is positive -/

namespace Bembel.Energy
open MeasureTheory Real Set

/-- The parameters of the Gaussians: width and centre. -/
noncomputable def gaussMeasure : Measure (ℝ × V3) := (volume.restrict (Ioi (0 : ℝ))).prod volume

/-- Weight of the Gaussians of width parameter `τ`. -/
noncomputable def weight (τ : ℝ) : ℝ := 2 / √π * ((π / (2 * (2 * τ ^ 2))) ^ ((3 : ℝ) / 2))⁻¹

/-- Gaussian. -/
noncomputable def bell (x : V3) (q : ℝ × V3) : ℝ := exp (-(2 * q.1 ^ 2) * ‖x - q.2‖ ^ 2)

theorem bell_pos (x : V3) (q : ℝ × V3) : 0 < bell x q := exp_pos _

theorem weight_pos {τ : ℝ} (h : 0 < τ) : 0 < weight τ := by unfold weight; positivity

theorem gauss_int (r : ℝ) (hr : 0 < r) : ∫ τ in Ioi (0 : ℝ), exp (-(r ^ 2) * τ ^ 2) = √π / (2 * r) := by
  rw [integral_gaussian_Ioi, sqrt_div pi_pos.le, sqrt_sq hr.le]
  field_simp

/-- The convolution of two Gaussians. -/
theorem conv (b : ℝ) (hb : 0 < b) (x y : V3) :
    ∫ z : V3, exp (-b * ‖x - z‖ ^ 2) * exp (-b * ‖y - z‖ ^ 2) = (π / (2 * b)) ^ ((3 : ℝ) / 2) * exp (-(b / 2) * ‖x - y‖ ^ 2) := by
  have e : ∀ z : V3, exp (-b * ‖x - z‖ ^ 2) * exp (-b * ‖y - z‖ ^ 2) =
      exp (-(2 * b) * ‖z - (1 / 2 : ℝ) • (x + y)‖ ^ 2) * exp (-(b / 2) * ‖x - y‖ ^ 2) := by
    intro z
    rw [← exp_add, ← exp_add]
    congr 1
    have p := parallelogram_law_with_norm ℝ (x - z) (y - z)
    have e1 : x - z - (y - z) = x - y := by abel
    have e2 : x - z + (y - z) = -((2 : ℝ) • (z - (1 / 2 : ℝ) • (x + y))) := by module
    rw [e1, e2, norm_neg, norm_smul] at p
    simp only [Real.norm_eq_abs, abs_two] at p
    nlinarith [p]
  simp only [e]
  rw [integral_mul_const, integral_sub_right_eq_self (fun z : V3 => exp (-(2 * b) * ‖z‖ ^ 2)), GaussianFourier.integral_rexp_neg_mul_sq_norm (by positivity)]
  simp

theorem bell_conv {τ : ℝ} (h : 0 < τ) (x y : V3) :
    ∫ z : V3, weight τ * (bell x (τ, z) * bell y (τ, z)) = 2 / √π * exp (-(‖x - y‖ ^ 2) * τ ^ 2) := by
  rw [integral_const_mul]
  have := conv (2 * τ ^ 2) (by positivity) x y
  simp only [bell] at *
  rw [this]
  unfold weight
  have p : 0 < (π / (2 * (2 * τ ^ 2))) ^ ((3 : ℝ) / 2) := by positivity
  rw [show -(2 * τ ^ 2 / 2) * ‖x - y‖ ^ 2 = -(‖x - y‖ ^ 2) * τ ^ 2 by ring]
  field_simp

theorem bell_continuous : Continuous fun p : V3 × ℝ × V3 => bell p.1 p.2 := by unfold bell; fun_prop

theorem weight_measurable : Measurable weight := by unfold weight; fun_prop

/-- The Coulomb kernel is a superposition of products of Gaussians. -/
theorem coulomb (x y : V3) (h : x ≠ y) :
    Integrable (fun q => weight q.1 * (bell x q * bell y q)) gaussMeasure ∧
    ∫ q, weight q.1 * (bell x q * bell y q) ∂gaussMeasure = 1 / ‖x - y‖ := by
  have r0 : 0 < ‖x - y‖ := norm_pos_iff.2 (sub_ne_zero.2 h)
  have hm : AEStronglyMeasurable (fun q : ℝ × V3 => weight q.1 * (bell x q * bell y q)) gaussMeasure := by
    refine (Measurable.mul (weight_measurable.comp measurable_fst) ?_).aestronglyMeasurable
    refine Continuous.measurable ?_
    exact (bell_continuous.comp (continuous_const.prodMk continuous_id)).mul (bell_continuous.comp (continuous_const.prodMk continuous_id))
  have hz : ∀ᵐ τ ∂(volume.restrict (Ioi (0 : ℝ))), Integrable (fun z : V3 => weight τ * (bell x (τ, z) * bell y (τ, z))) := by
    filter_upwards [ae_restrict_mem measurableSet_Ioi] with τ hτ
    refine Integrable.of_integral_ne_zero ?_
    rw [bell_conv hτ]
    positivity
  have g := gauss_int ‖x - y‖ r0
  have hg : Integrable (fun τ => 2 / √π * exp (-(‖x - y‖ ^ 2) * τ ^ 2)) (volume.restrict (Ioi (0 : ℝ))) := by
    refine Integrable.const_mul (Integrable.of_integral_ne_zero ?_) _
    rw [g]; positivity
  have hi : Integrable (fun q => weight q.1 * (bell x q * bell y q)) gaussMeasure := by
    refine (integrable_prod_iff hm).2 ⟨hz, hg.congr ?_⟩
    filter_upwards [ae_restrict_mem measurableSet_Ioi] with τ hτ
    rw [← bell_conv hτ]
    refine integral_congr_ae (Filter.Eventually.of_forall fun z => ?_)
    exact (Real.norm_of_nonneg (mul_nonneg (weight_pos hτ).le (mul_nonneg (bell_pos _ _).le (bell_pos _ _).le))).symm
  refine ⟨hi, ?_⟩
  unfold gaussMeasure
  rw [integral_prod _ hi, setIntegral_congr_fun measurableSet_Ioi (fun τ hτ => bell_conv hτ x y), integral_const_mul, g]
  field_simp

variable {Ω Θ : Type} [TopologicalSpace Ω] [MeasurableSpace Ω] [BorelSpace Ω] [SecondCountableTopology Ω]
  [TopologicalSpace Θ] [MeasurableSpace Θ] [BorelSpace Θ] [SecondCountableTopology Θ]

/-- The Gaussian moment of a density. -/
noncomputable def moment (μ : Measure Ω) (u : Ω → ℝ) (x : Ω → V3) (q : ℝ × V3) : ℝ := ∫ s, u s * bell (x s) q ∂μ

/-- The energy of two densities is an integral over products of their moments. -/
theorem pair_energy (μ : Measure Ω) (ν : Measure Θ) [SFinite μ] [SFinite ν] (u : Ω → ℝ) (v : Θ → ℝ) (x : Ω → V3) (y : Θ → V3)
    (hu : Continuous u) (hv : Continuous v) (hx : Continuous x) (hy : Continuous y)
    (hne : ∀ᵐ p ∂(μ.prod ν), x p.1 ≠ y p.2) (hi : Integrable (fun p => u p.1 * v p.2 * (1 / ‖x p.1 - y p.2‖)) (μ.prod ν)) :
    Integrable (fun q => weight q.1 * (moment μ u x q * moment ν v y q)) gaussMeasure ∧
    ∫ q, weight q.1 * (moment μ u x q * moment ν v y q) ∂gaussMeasure = ∫ p, u p.1 * v p.2 * (1 / ‖x p.1 - y p.2‖) ∂(μ.prod ν) := by
  let Φ : Ω × Θ → ℝ × V3 → ℝ := fun p q => u p.1 * v p.2 * (weight q.1 * (bell (x p.1) q * bell (y p.2) q))
  haveI : SFinite gaussMeasure := by unfold gaussMeasure; infer_instance
  have hm : AEStronglyMeasurable (Function.uncurry Φ) ((μ.prod ν).prod gaussMeasure) := by
    refine (Measurable.mul ?_ (Measurable.mul (weight_measurable.comp (measurable_fst.comp measurable_snd)) ?_)).aestronglyMeasurable
    · refine Continuous.measurable ?_
      fun_prop
    · refine Continuous.measurable ?_
      exact (bell_continuous.comp ((hx.comp (continuous_fst.comp continuous_fst)).prodMk continuous_snd)).mul
        (bell_continuous.comp ((hy.comp (continuous_snd.comp continuous_fst)).prodMk continuous_snd))
  have hΦ : Integrable (Function.uncurry Φ) ((μ.prod ν).prod gaussMeasure) := by
    refine (integrable_prod_iff hm).2 ⟨?_, hi.norm.congr ?_⟩
    · filter_upwards [hne] with p hp using (coulomb _ _ hp).1.const_mul (u p.1 * v p.2)
    · filter_upwards [hne] with p hp
      rw [norm_mul, ← (coulomb _ _ hp).2, ← norm_of_nonneg (show 0 ≤ ∫ q, weight q.1 * (bell (x p.1) q * bell (y p.2) q) ∂gaussMeasure by rw [(coulomb _ _ hp).2]; positivity)]
      rw [norm_norm, norm_of_nonneg (show 0 ≤ ∫ q, weight q.1 * (bell (x p.1) q * bell (y p.2) q) ∂gaussMeasure by rw [(coulomb _ _ hp).2]; positivity), ← integral_const_mul]
      refine integral_congr_ae ?_
      have hq : ∀ᵐ q ∂gaussMeasure, 0 < q.1 := by
        have : ∀ᵐ τ ∂(volume.restrict (Ioi (0 : ℝ))), 0 < τ := by filter_upwards [ae_restrict_mem measurableSet_Ioi] with τ h using h
        exact Measure.quasiMeasurePreserving_fst.ae this
      filter_upwards [hq] with q hq
      show _ = ‖u p.1 * v p.2 * (weight q.1 * (bell (x p.1) q * bell (y p.2) q))‖
      rw [norm_mul _ (weight q.1 * _), norm_of_nonneg (mul_nonneg (weight_pos hq).le (mul_nonneg (bell_pos _ _).le (bell_pos _ _).le)), norm_mul]
  have inner : ∀ q, ∫ p, Φ p q ∂(μ.prod ν) = weight q.1 * (moment μ u x q * moment ν v y q) := by
    intro q
    unfold moment
    rw [← integral_prod_mul, ← integral_const_mul]
    refine integral_congr_ae (Filter.Eventually.of_forall fun p => ?_)
    simp only [Φ]; ring
  have sw := integral_integral_swap hΦ
  refine ⟨(hΦ.integral_prod_right).congr (Filter.Eventually.of_forall inner), ?_⟩
  simp only [← inner]
  rw [← sw]
  refine integral_congr_ae ?_
  filter_upwards [hne] with p hp
  rw [integral_const_mul, (coulomb _ _ hp).2]

/-- The energy of a finite sum of densities. -/
theorem total_energy {ι : Type} (S : Finset ι) (μ : Measure Ω) [SFinite μ] (u : ι → Ω → ℝ) (x : ι → Ω → V3)
    (hu : ∀ a, Continuous (u a)) (hx : ∀ a, Continuous (x a)) (hne : ∀ a ∈ S, ∀ b ∈ S, ∀ᵐ p ∂(μ.prod μ), x a p.1 ≠ x b p.2)
    (hi : ∀ a ∈ S, ∀ b ∈ S, Integrable (fun p => u a p.1 * u b p.2 * (1 / ‖x a p.1 - x b p.2‖)) (μ.prod μ)) :
    Integrable (fun q => weight q.1 * (∑ a ∈ S, moment μ (u a) (x a) q) ^ 2) gaussMeasure ∧
    ∑ a ∈ S, ∑ b ∈ S, ∫ p, u a p.1 * u b p.2 * (1 / ‖x a p.1 - x b p.2‖) ∂(μ.prod μ) =
      ∫ q, weight q.1 * (∑ a ∈ S, moment μ (u a) (x a) q) ^ 2 ∂gaussMeasure := by
  have e : ∀ q, weight q.1 * (∑ a ∈ S, moment μ (u a) (x a) q) ^ 2 =
      ∑ a ∈ S, ∑ b ∈ S, weight q.1 * (moment μ (u a) (x a) q * moment μ (u b) (x b) q) := by
    intro q
    rw [pow_two, Finset.sum_mul_sum, Finset.mul_sum]
    exact Finset.sum_congr rfl fun a _ => Finset.mul_sum _ _ _
  have hp := fun a ha b hb => pair_energy μ μ (u a) (u b) (x a) (x b) (hu a) (hu b) (hx a) (hx b) (hne a ha b hb) (hi a ha b hb)
  simp only [e]
  refine ⟨integrable_finsetSum _ fun a ha => integrable_finsetSum _ fun b hb => (hp a ha b hb).1, ?_⟩
  rw [integral_finsetSum _ fun a ha => integrable_finsetSum _ fun b hb => (hp a ha b hb).1]
  refine Finset.sum_congr rfl fun a ha => ?_
  rw [integral_finsetSum _ fun b hb => (hp a ha b hb).1]
  exact Finset.sum_congr rfl fun b hb => (hp a ha b hb).2.symm

theorem gauss_pos_ae : ∀ᵐ q ∂gaussMeasure, 0 < q.1 := by
  have : ∀ᵐ τ ∂(volume.restrict (Ioi (0 : ℝ))), 0 < τ := by filter_upwards [ae_restrict_mem measurableSet_Ioi] with τ h using h
  exact Measure.quasiMeasurePreserving_fst.ae this

/-- A density that is positive at a point `s0` which is not covered by other points of the surface has moments that do not vanish. -/
theorem moments_determine {ι : Type} (S : Finset ι) (μ : Measure Ω) [IsFiniteMeasure μ] (u : ι → Ω → ℝ) (x : ι → Ω → V3)
    (hu : ∀ a, Continuous (u a)) (hx : ∀ a, Continuous (x a)) (K : Set Ω) (hK : IsCompact K) (hKm : ∀ᵐ s ∂μ, s ∈ K)
    (a0 : ι) (ha0 : a0 ∈ S) (s0 : Ω) (hs0 : ∀ U, IsOpen U → s0 ∈ U → μ U ≠ 0)
    (hsep : ∀ a ∈ S, ∀ s ∈ K, x a s = x a0 s0 → a = a0 ∧ s = s0) (hpos : 0 < u a0 s0) :
    ∃ (τ0 ε : ℝ), 0 < ε ∧ ∀ τ, τ0 < τ → 0 < τ → ∀ z, ‖z - x a0 s0‖ < ε → 0 < ∑ a ∈ S, moment μ (u a) (x a) (τ, z) := by
  classical
  set x0 := x a0 s0
  set m := u a0 s0 / 2
  have m0 : 0 < m := half_pos hpos
  let N : Set Ω := {s | m < u a0 s}
  have hN : IsOpen N := isOpen_lt continuous_const (hu a0)
  have sN : s0 ∈ N := half_lt_self hpos
  let C : ι → Set Ω := fun a => if a = a0 then K \ N else K
  have hC : ∀ a, IsCompact (C a) := fun a => by
    by_cases h : a = a0
    · simp only [C, h, if_true]; exact hK.diff hN
    · simp only [C, h, if_false]; exact hK
  have hD : IsCompact (⋃ a ∈ S, x a '' C a) := S.isCompact_biUnion fun a _ => (hC a).image (hx a)
  have x0D : x0 ∉ ⋃ a ∈ S, x a '' C a := by
    intro h
    simp only [mem_iUnion, mem_image] at h
    obtain ⟨a, ha, s, hs, e⟩ := h
    have hsK : s ∈ K := by
      by_cases h : a = a0
      · simp only [C, h, if_true] at hs; exact hs.1
      · simp only [C, h, if_false] at hs; exact hs
    obtain ⟨rfl, rfl⟩ := hsep a ha s hsK e
    simp only [C, if_true] at hs
    exact hs.2 sN
  obtain ⟨ε, ε0, hε⟩ := Metric.isOpen_iff.1 hD.isClosed.isOpen_compl x0 x0D
  set δ := ε / 3 with hδ
  have δ0 : 0 < δ := by positivity
  have far : ∀ a ∈ S, ∀ s ∈ C a, 3 * δ ≤ ‖x a s - x0‖ := by
    intro a ha s hs
    by_contra h
    have h : ‖x a s - x0‖ < ε := by rw [hδ] at h; linarith [not_le.1 h]
    refine hε (a := x a s) (by rw [Metric.mem_ball, dist_eq_norm]; exact h) ?_
    simp only [mem_iUnion, mem_image]
    exact ⟨a, ha, s, hs, rfl⟩
  let U : Set Ω := N ∩ {s | ‖x a0 s - x0‖ < δ / 2}
  have hU : IsOpen U := hN.inter (isOpen_lt (((hx a0).sub continuous_const).norm) continuous_const)
  have sU : s0 ∈ U := ⟨sN, by show ‖x a0 s0 - x0‖ < δ / 2; rw [sub_self, norm_zero]; positivity⟩
  have μU : 0 < μ.real U := ENNReal.toReal_pos (hs0 U hU sU) (measure_ne_top _ _)
  -- a bound of all densities
  have bnd : ∀ a, ∃ A, 0 ≤ A ∧ ∀ s ∈ K, |u a s| ≤ A := fun a => by
    obtain ⟨A, hA⟩ := hK.exists_bound_of_continuousOn (hu a).continuousOn
    exact ⟨max 0 A, le_max_left _ _, fun s hs => (hA s hs).trans (le_max_right _ _)⟩
  choose A A0 hA using bnd
  set B := (∑ a ∈ S, A a) * μ.real univ
  set c := m * μ.real U
  have c0 : 0 < c := by positivity
  have B0 : 0 ≤ B := mul_nonneg (Finset.sum_nonneg fun a _ => A0 a) measureReal_nonneg
  refine ⟨1 + B / c / (6 * δ ^ 2), δ / 2, by positivity, fun τ hτ τ0 z hz => ?_⟩
  have bc : ∀ a, Continuous fun s => bell (x a s) (τ, z) := fun a => bell_continuous.comp ((hx a).prodMk continuous_const)
  have bint : ∀ a, Integrable (fun s => u a s * bell (x a s) (τ, z)) μ := fun a => by
    refine Integrable.of_bound (((hu a).mul (bc a)).aestronglyMeasurable) (A a) ?_
    filter_upwards [hKm] with s hs
    rw [norm_mul]
    have : ‖bell (x a s) (τ, z)‖ ≤ 1 := by
      rw [norm_of_nonneg (bell_pos _ _).le]
      exact exp_le_one_iff.2 (by nlinarith [sq_nonneg τ, sq_nonneg ‖x a s - z‖, mul_nonneg (sq_nonneg τ) (sq_nonneg ‖x a s - z‖)])
    calc ‖u a s‖ * ‖bell (x a s) (τ, z)‖ ≤ A a * 1 := mul_le_mul (hA a s hs) this (norm_nonneg _) (A0 a)
      _ = A a := mul_one _
  have farbell : ∀ a ∈ S, ∀ s ∈ C a, bell (x a s) (τ, z) ≤ exp (-(8 * δ ^ 2 * τ ^ 2)) := by
    intro a ha s hs
    have h1 := far a ha s hs
    have h2 : 2 * δ ≤ ‖x a s - z‖ := by
      have : ‖x a s - x0‖ ≤ ‖x a s - z‖ + ‖z - x0‖ := by
        have := norm_add_le (x a s - z) (z - x0)
        rwa [sub_add_sub_cancel] at this
      linarith
    refine exp_le_exp.2 ?_
    have h3 : (2 * δ) ^ 2 ≤ ‖x a s - z‖ ^ 2 := pow_le_pow_left₀ (by positivity) h2 2
    nlinarith [mul_le_mul_of_nonneg_left h3 (by positivity : 0 ≤ 2 * τ ^ 2)]
  -- contributions of the points of `C a`
  have outer : ∀ a ∈ S, ∀ D : Set Ω, MeasurableSet D → (∀ s ∈ D, s ∈ K → s ∈ C a) →
      |∫ s in D, u a s * bell (x a s) (τ, z) ∂μ| ≤ A a * μ.real univ * exp (-(8 * δ ^ 2 * τ ^ 2)) := by
    intro a ha D hDm hDC
    have : ∀ᵐ s ∂(μ.restrict D), ‖u a s * bell (x a s) (τ, z)‖ ≤ A a * exp (-(8 * δ ^ 2 * τ ^ 2)) := by
      filter_upwards [ae_restrict_of_ae hKm, ae_restrict_mem hDm] with s hs hsD
      rw [norm_mul, norm_of_nonneg (bell_pos _ _).le]
      exact mul_le_mul (hA a s hs) (farbell a ha s (hDC s hsD hs)) (bell_pos _ _).le (A0 a)
    refine (norm_integral_le_of_norm_le_const this).trans ?_
    have h1 : (μ.restrict D).real univ ≤ μ.real univ := by
      rw [measureReal_restrict_apply_univ]
      exact measureReal_mono (subset_univ _)
    calc _ ≤ A a * exp (-(8 * δ ^ 2 * τ ^ 2)) * μ.real univ :=
          mul_le_mul_of_nonneg_left h1 (mul_nonneg (A0 a) (exp_pos _).le)
      _ = _ := by ring
  have inner : c * exp (-(2 * δ ^ 2 * τ ^ 2)) ≤ ∫ s in N, u a0 s * bell (x a0 s) (τ, z) ∂μ := by
    have h1 : ∫ s in U, u a0 s * bell (x a0 s) (τ, z) ∂μ ≤ ∫ s in N, u a0 s * bell (x a0 s) (τ, z) ∂μ := by
      refine setIntegral_mono_set (bint a0).integrableOn ?_ (Filter.Eventually.of_forall fun s hs => hs.1)
      filter_upwards [ae_restrict_mem hN.measurableSet] with s hs
      exact mul_nonneg (m0.le.trans (le_of_lt hs)) (bell_pos _ _).le
    refine le_trans ?_ h1
    have h2 : ∫ s in U, m * exp (-(2 * δ ^ 2 * τ ^ 2)) ∂μ ≤ ∫ s in U, u a0 s * bell (x a0 s) (τ, z) ∂μ := by
      refine setIntegral_mono_on (integrableOn_const (measure_ne_top _ _)) (bint a0).integrableOn hU.measurableSet fun s hs => ?_
      refine mul_le_mul (le_of_lt hs.1) (exp_le_exp.2 ?_) (exp_pos _).le (m0.le.trans (le_of_lt hs.1))
      have h3 : ‖x a0 s - z‖ ≤ δ := by
        have := norm_add_le (x a0 s - x0) (x0 - z)
        rw [sub_add_sub_cancel, norm_sub_rev x0 z] at this
        have := hs.2
        simp only [mem_ofPred_eq] at this
        linarith
      have h4 : ‖x a0 s - z‖ ^ 2 ≤ δ ^ 2 := pow_le_pow_left₀ (norm_nonneg _) h3 2
      nlinarith [mul_le_mul_of_nonneg_left h4 (by positivity : 0 ≤ 2 * τ ^ 2)]
    refine le_trans (le_of_eq ?_) h2
    rw [setIntegral_const, smul_eq_mul]
    ring
  have main0 : c * exp (-(2 * δ ^ 2 * τ ^ 2)) - A a0 * μ.real univ * exp (-(8 * δ ^ 2 * τ ^ 2)) ≤ moment μ (u a0) (x a0) (τ, z) := by
    have h1 := integral_add_compl hN.measurableSet (bint a0)
    have h2 := (abs_le.1 (outer a0 ha0 Nᶜ hN.measurableSet.compl fun s hs hK => by simp only [C, if_true]; exact ⟨hK, hs⟩)).1
    unfold moment
    linarith
  have maina : ∀ a ∈ S.erase a0, -(A a * μ.real univ * exp (-(8 * δ ^ 2 * τ ^ 2))) ≤ moment μ (u a) (x a) (τ, z) := by
    intro a ha
    have h1 := (abs_le.1 (outer a (Finset.mem_of_mem_erase ha) univ MeasurableSet.univ fun s _ hK => by
      simp only [C, Finset.ne_of_mem_erase ha, if_false]; exact hK)).1
    rw [Measure.restrict_univ] at h1
    exact h1
  rw [← Finset.add_sum_erase _ _ ha0]
  have h3 := Finset.sum_le_sum maina
  have h4 : (∑ a ∈ S.erase a0, -(A a * μ.real univ * exp (-(8 * δ ^ 2 * τ ^ 2)))) - A a0 * μ.real univ * exp (-(8 * δ ^ 2 * τ ^ 2)) =
      -(B * exp (-(8 * δ ^ 2 * τ ^ 2))) := by
    rw [Finset.sum_neg_distrib, ← Finset.sum_mul, ← Finset.sum_mul]
    simp only [B]
    rw [← Finset.add_sum_erase S A ha0]
    ring
  have h5 : B * exp (-(8 * δ ^ 2 * τ ^ 2)) < c * exp (-(2 * δ ^ 2 * τ ^ 2)) := by
    have e8 : exp (-(8 * δ ^ 2 * τ ^ 2)) = exp (-(6 * δ ^ 2 * τ ^ 2)) * exp (-(2 * δ ^ 2 * τ ^ 2)) := by rw [← exp_add]; congr 1; ring
    rw [e8, ← mul_assoc]
    refine mul_lt_mul_of_pos_right ?_ (exp_pos _)
    rw [exp_neg, mul_inv_lt_iff₀ (exp_pos _)]
    have h6 := add_one_le_exp (6 * δ ^ 2 * τ ^ 2)
    have h7 : B / c ≤ 6 * δ ^ 2 * τ ^ 2 := by
      have d0 : 0 < 6 * δ ^ 2 := by positivity
      have q0 : 0 ≤ B / c / (6 * δ ^ 2) := by positivity
      have : B / c / (6 * δ ^ 2) ≤ τ ^ 2 := by nlinarith
      rwa [div_le_iff₀ d0, mul_comm] at this
    rw [div_le_iff₀ c0] at h7
    nlinarith
  linarith

/-- The energy is non-negative; if it vanishes, then all densities vanish at points which are not covered by other points of the surface. -/
theorem energy_definite {ι : Type} (S : Finset ι) (μ : Measure Ω) [IsFiniteMeasure μ] (u : ι → Ω → ℝ) (x : ι → Ω → V3)
    (hu : ∀ a, Continuous (u a)) (hx : ∀ a, Continuous (x a)) (hne : ∀ a ∈ S, ∀ b ∈ S, ∀ᵐ p ∂(μ.prod μ), x a p.1 ≠ x b p.2)
    (hi : ∀ a ∈ S, ∀ b ∈ S, Integrable (fun p => u a p.1 * u b p.2 * (1 / ‖x a p.1 - x b p.2‖)) (μ.prod μ))
    (K : Set Ω) (hK : IsCompact K) (hKm : ∀ᵐ s ∂μ, s ∈ K) :
    0 ≤ ∑ a ∈ S, ∑ b ∈ S, ∫ p, u a p.1 * u b p.2 * (1 / ‖x a p.1 - x b p.2‖) ∂(μ.prod μ) ∧
    (∑ a ∈ S, ∑ b ∈ S, ∫ p, u a p.1 * u b p.2 * (1 / ‖x a p.1 - x b p.2‖) ∂(μ.prod μ) = 0 → ∀ a0 ∈ S, ∀ s0 : Ω,
      (∀ U, IsOpen U → s0 ∈ U → μ U ≠ 0) → (∀ a ∈ S, ∀ s ∈ K, x a s = x a0 s0 → a = a0 ∧ s = s0) → u a0 s0 = 0) := by
  obtain ⟨h1, h2⟩ := total_energy S μ u x hu hx hne hi
  have nn : 0 ≤ᵐ[gaussMeasure] fun q => weight q.1 * (∑ a ∈ S, moment μ (u a) (x a) q) ^ 2 := by
    filter_upwards [gauss_pos_ae] with q hq
    exact mul_nonneg (weight_pos hq).le (sq_nonneg _)
  rw [h2]
  refine ⟨integral_nonneg_of_ae nn, fun h0 a0 ha0 s0 hs0 hsep => ?_⟩
  have hz : ∀ᵐ q ∂gaussMeasure, ∑ a ∈ S, moment μ (u a) (x a) q = 0 := by
    filter_upwards [(integral_eq_zero_iff_of_nonneg_ae nn h1).1 h0, gauss_pos_ae] with q hq hq0
    simpa [(weight_pos hq0).ne'] using hq
  have find : ∀ (τ0 ε : ℝ), 0 < ε → ∃ τ z, τ0 < τ ∧ 0 < τ ∧ ‖z - x a0 s0‖ < ε ∧ ∑ a ∈ S, moment μ (u a) (x a) (τ, z) = 0 := by
    intro τ0 ε ε0
    have : gaussMeasure (Ioi (max 0 τ0) ×ˢ Metric.ball (x a0 s0) ε) ≠ 0 := by
      unfold gaussMeasure
      rw [Measure.prod_prod]
      refine mul_ne_zero ?_ (Metric.measure_ball_pos _ _ ε0).ne'
      rw [Measure.restrict_apply measurableSet_Ioi, inter_eq_left.2 (Ioi_subset_Ioi (le_max_left _ _))]
      simp
    obtain ⟨q, hq1, hq2⟩ := ((frequently_ae_mem_iff.2 this).and_eventually hz).exists
    refine ⟨q.1, q.2, (le_max_right _ _).trans_lt hq1.1, (le_max_left _ _).trans_lt hq1.1, ?_, hq2⟩
    have := hq1.2
    rwa [Metric.mem_ball, dist_eq_norm] at this
  rcases lt_trichotomy (u a0 s0) 0 with hlt | heq | hgt
  · obtain ⟨τ0, ε, ε0, h⟩ := moments_determine S μ (fun a s => -u a s) x (fun a => (hu a).neg) hx K hK hKm a0 ha0 s0 hs0 hsep (neg_pos.2 hlt)
    obtain ⟨τ, z, k1, k2, k3, k4⟩ := find τ0 ε ε0
    have := h τ k1 k2 z k3
    simp only [moment, neg_mul, integral_neg, Finset.sum_neg_distrib] at this k4
    linarith
  · exact heq
  · obtain ⟨τ0, ε, ε0, h⟩ := moments_determine S μ u x hu hx K hK hKm a0 ha0 s0 hs0 hsep hgt
    obtain ⟨τ, z, k1, k2, k3, k4⟩ := find τ0 ε ε0
    exact absurd k4 (h τ k1 k2 z k3).ne'

end Bembel.Energy
