import Mathlib.Analysis.Calculus.ContDiff.RCLike
import Mathlib.Analysis.Normed.Module.FiniteDimension
import Mathlib.Topology.MetricSpace.Bounded
/-! # Lower bounds for distances on compact sets -/

namespace Bembel.Singular
open Filter Topology Asymptotics
open scoped ContDiff

variable {E W V : Type} [NormedAddCommGroup E] [NormedAddCommGroup W] [NormedAddCommGroup V]

/-- A lower bound near the zeros is a lower bound everywhere on a compact set. -/
theorem compact_gap (K : Set E) (hK : IsCompact K) (lam : E → W) (d : E → V) (hl : Continuous lam) (hd : Continuous d)
    (h0 : ∀ p ∈ K, d p = 0 → lam p = 0) (loc : ∀ p ∈ K, lam p = 0 → ∃ c > 0, ∀ᶠ q in 𝓝[K] p, c * ‖lam q‖ ≤ ‖d q‖) :
    ∃ c > 0, ∀ p ∈ K, c * ‖lam p‖ ≤ ‖d p‖ := by
  refine hK.induction_on (p := fun S => ∃ c > 0, ∀ p ∈ S, c * ‖lam p‖ ≤ ‖d p‖) ⟨1, one_pos, by simp⟩ ?_ ?_ ?_
  · rintro S S' hS ⟨c, c0, h⟩
    exact ⟨c, c0, fun p hp => h p (hS hp)⟩
  · rintro S S' ⟨c, c0, h⟩ ⟨c', c0', h'⟩
    refine ⟨min c c', lt_min c0 c0', ?_⟩
    rintro p (hp | hp)
    · exact (mul_le_mul_of_nonneg_right (min_le_left _ _) (norm_nonneg _)).trans (h p hp)
    · exact (mul_le_mul_of_nonneg_right (min_le_right _ _) (norm_nonneg _)).trans (h' p hp)
  · intro p hp
    by_cases hz : lam p = 0
    · obtain ⟨c, c0, h⟩ := loc p hp hz
      exact ⟨_, h, c, c0, fun q hq => hq⟩
    · have hdp : d p ≠ 0 := fun h => hz (h0 p hp h)
      have n1 : 0 < ‖d p‖ := norm_pos_iff.2 hdp
      have e1 : ∀ᶠ q in 𝓝 p, ‖d p‖ / 2 < ‖d q‖ := (hd.norm.tendsto p).eventually (lt_mem_nhds (by linarith))
      have e2 : ∀ᶠ q in 𝓝 p, ‖lam q‖ < ‖lam p‖ + 1 := (hl.norm.tendsto p).eventually (gt_mem_nhds (by linarith))
      refine ⟨_, mem_nhdsWithin_of_mem_nhds (e1.and e2), ‖d p‖ / 2 / (‖lam p‖ + 1), by positivity, ?_⟩
      rintro q ⟨q1, q2⟩
      have : ‖d p‖ / 2 / (‖lam p‖ + 1) * ‖lam q‖ ≤ ‖d p‖ / 2 := by
        rw [div_mul_eq_mul_div, div_le_iff₀ (by positivity)]
        exact mul_le_mul_of_nonneg_left q2.le (by positivity)
      linarith

variable [NormedSpace ℝ W] [NormedSpace ℝ V] [FiniteDimensional ℝ W]

/-- A linear map without zeros in a closed cone is bounded from below on it. -/
theorem cone_gap (C : Set W) (hC : IsClosed C) (hs : ∀ v ∈ C, ∀ s : ℝ, 0 ≤ s → s • v ∈ C) (T : W →L[ℝ] V) (hT : ∀ v ∈ C, T v = 0 → v = 0) :
    ∃ c > 0, ∀ v ∈ C, c * ‖v‖ ≤ ‖T v‖ := by
  have hK : IsCompact (Metric.sphere (0 : W) 1 ∩ C) := (isCompact_sphere (0 : W) 1).inter_right hC
  by_cases hne : (Metric.sphere (0 : W) 1 ∩ C).Nonempty
  · obtain ⟨v0, hv0, hmin⟩ := hK.exists_isMinOn hne (T.continuous.norm).continuousOn
    have hv1 : ‖v0‖ = 1 := by simpa using hv0.1
    have hpos : 0 < ‖T v0‖ := by
      rw [norm_pos_iff]
      intro h
      have := hT v0 hv0.2 h
      rw [this, norm_zero] at hv1
      exact zero_ne_one hv1
    refine ⟨‖T v0‖, hpos, fun v hv => ?_⟩
    by_cases hz : v = 0
    · simp [hz]
    · have n0 : 0 < ‖v‖ := norm_pos_iff.2 hz
      have := hmin ⟨show ‖v‖⁻¹ • v ∈ Metric.sphere (0 : W) 1 by simp [norm_smul, n0.ne'], hs v hv ‖v‖⁻¹ (by positivity)⟩
      have : ‖T v0‖ ≤ ‖T (‖v‖⁻¹ • v)‖ := this
      rw [map_smul, norm_smul, norm_inv, norm_norm, inv_mul_eq_div, le_div_iff₀ n0] at this
      exact this
  · refine ⟨1, one_pos, fun v hv => ?_⟩
    by_cases hz : v = 0
    · simp [hz]
    · exact absurd ⟨‖v‖⁻¹ • v, by simp [norm_smul, (norm_pos_iff.2 hz).ne'], hs v hv ‖v‖⁻¹ (by positivity)⟩ hne

/-- The local bound: `d` is `T lam` up to terms of higher order. -/
theorem local_gap (K : Set E) (lam : E → W) (d : E → V) (p : E) (C : Set W) (T : W →L[ℝ] V) (hlam : ∀ q ∈ K, lam q ∈ C)
    (hT : ∃ c > 0, ∀ v ∈ C, c * ‖v‖ ≤ ‖T v‖) (ho : (fun q => d q - T (lam q)) =o[𝓝[K] p] lam) :
    ∃ c > 0, ∀ᶠ q in 𝓝[K] p, c * ‖lam q‖ ≤ ‖d q‖ := by
  obtain ⟨c, c0, hc⟩ := hT
  refine ⟨c / 2, by positivity, ?_⟩
  have e := ho.def (half_pos c0)
  filter_upwards [e, self_mem_nhdsWithin] with q h1 h2
  have h1 : ‖d q - T (lam q)‖ ≤ c / 2 * ‖lam q‖ := h1
  have h3 := hc _ (hlam q h2)
  have h4 : ‖T (lam q)‖ ≤ ‖d q‖ + ‖d q - T (lam q)‖ := by
    calc ‖T (lam q)‖ = ‖d q - (d q - T (lam q))‖ := by congr 1; abel
      _ ≤ _ := norm_sub_le _ _
  linarith

end Bembel.Singular
