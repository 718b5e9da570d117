import Mathlib.Analysis.InnerProductSpace.Calculus
import Mathlib.Analysis.InnerProductSpace.Laplacian
import Mathlib.Analysis.SpecialFunctions.Sqrt
import Mathlib.Analysis.Calculus.ContDiff.FTaylorSeries
/-! # Derivatives and Laplacian of radial functions -/

namespace Bembel
namespace Radial

open Filter Topology

variable {V : Type*} [NormedAddCommGroup V] [InnerProductSpace ℝ V] {E : Type*} [NormedAddCommGroup E] [NormedSpace ℝ E]

theorem hasFDerivAt_dist (y z : V) (h : z ≠ y) :
    HasFDerivAt (fun z => ‖z - y‖) ((1 / ‖z - y‖) • innerSL ℝ (z - y)) z := by
  have h0 : z - y ≠ 0 := sub_ne_zero.2 h
  have h1 : HasFDerivAt (fun z => ‖z - y‖ ^ 2) (2 • innerSL ℝ (z - y)) z := by
    have := (hasStrictFDerivAt_norm_sq (F := V) (z - y)).hasFDerivAt.comp z ((hasFDerivAt_id z).sub_const y)
    exact this.congr_fderiv (by ext v; simp)
  have h2 := h1.sqrt (by positivity)
  have e : (fun z => Real.sqrt (‖z - y‖ ^ 2)) = fun z => ‖z - y‖ := by
    funext z; exact Real.sqrt_sq (norm_nonneg _)
  rw [e] at h2
  convert h2 using 1
  rw [Real.sqrt_sq (norm_nonneg _)]
  ext v
  have : ‖z - y‖ ≠ 0 := norm_ne_zero_iff.2 h0
  simp
  field_simp

theorem hasFDerivAt (g : ℝ → E) (g' : E) (y z : V) (h : z ≠ y) (hg : HasDerivAt g g' ‖z - y‖) :
    HasFDerivAt (fun z => g ‖z - y‖) ((innerSL ℝ (z - y)).smulRight ((1 / ‖z - y‖) • g')) z := by
  have := hg.hasFDerivAt.comp z (hasFDerivAt_dist y z h)
  refine this.congr_fderiv ?_
  apply ContinuousLinearMap.ext
  intro v
  show ((1 / ‖z - y‖) * inner ℝ (z - y) v) • g' = inner ℝ (z - y) v • (1 / ‖z - y‖) • g'
  rw [smul_smul, mul_comm]

/-- The Laplacian of a radial function in `d` dimensions; `q r = g' r / r`. -/
theorem laplacian [FiniteDimensional ℝ V] (g g' q' : ℝ → E) (y x : V) (h : x ≠ y)
    (hg : ∀ r, 0 < r → HasDerivAt g (g' r) r) (hq : ∀ r, 0 < r → HasDerivAt (fun r => (1 / r) • g' r) (q' r) r)
    (hc : ∀ r, 0 < r → ContDiffAt ℝ 2 g r) :
    Laplacian.laplacian (fun z => g ‖z - y‖) x =
      (Module.finrank ℝ V : ℝ) • (1 / ‖x - y‖) • g' ‖x - y‖ + ‖x - y‖ • q' ‖x - y‖ := by
  have hr : 0 < ‖x - y‖ := norm_pos_iff.2 (sub_ne_zero.2 h)
  set b := stdOrthonormalBasis ℝ V
  have key : ∀ v : V, iteratedFDeriv ℝ 2 (fun z => g ‖z - y‖) x ![v, v] =
      (inner ℝ v v) • (1 / ‖x - y‖) • g' ‖x - y‖ + (inner ℝ (x - y) v * inner ℝ (x - y) v) • (1 / ‖x - y‖) • q' ‖x - y‖ := by
    intro v
    have cd : ContDiffAt ℝ 2 (fun z => g ‖z - y‖) x := by
      have : ContDiffAt ℝ 2 (fun z : V => ‖z - y‖) x :=
        (contDiffAt_norm ℝ (sub_ne_zero.2 h)).comp x (contDiffAt_id.sub contDiffAt_const)
      exact (hc _ hr).comp x this
    have d1 : DifferentiableAt ℝ (fderiv ℝ fun z => g ‖z - y‖) x :=
      (cd.fderiv_right (m := 1) (by norm_num)).differentiableAt (by norm_num)
    rw [iteratedFDeriv_two_apply]
    simp only [Matrix.cons_val_zero, Matrix.cons_val_one]
    have e1 : fderiv ℝ (fderiv ℝ fun z => g ‖z - y‖) x v v =
        fderiv ℝ (fun z => fderiv ℝ (fun z => g ‖z - y‖) z v) x v := by
      have := (d1.hasFDerivAt.clm_apply (hasFDerivAt_const v x)).fderiv
      rw [this]
      simp
    rw [e1]
    have e2 : (fun z => fderiv ℝ (fun z => g ‖z - y‖) z v) =ᶠ[𝓝 x]
        fun z => inner ℝ (z - y) v • (1 / ‖z - y‖) • g' ‖z - y‖ := by
      filter_upwards [isOpen_ne.mem_nhds h] with z hz
      have hz' : 0 < ‖z - y‖ := norm_pos_iff.2 (sub_ne_zero.2 hz)
      rw [(hasFDerivAt g (g' ‖z - y‖) y z hz (hg _ hz')).fderiv]
      rfl
    rw [e2.fderiv_eq]
    have d2 : HasFDerivAt (fun z : V => inner ℝ (z - y) v) ((innerSL ℝ v)) x := by
      have := ((hasFDerivAt_id x).sub_const y).inner ℝ (hasFDerivAt_const v x)
      exact this.congr_fderiv (by ext w; simp [real_inner_comm])
    have d3 := hasFDerivAt (fun r => (1 / r) • g' r) (q' ‖x - y‖) y x h (hq _ hr)
    have d4 : HasFDerivAt (fun z => inner ℝ (z - y) v • (1 / ‖z - y‖) • g' ‖z - y‖) _ x := d2.smul d3
    rw [d4.fderiv]
    show inner ℝ (x - y) v • inner ℝ (x - y) v • (1 / ‖x - y‖) • q' ‖x - y‖ + inner ℝ v v • (1 / ‖x - y‖) • g' ‖x - y‖ = _
    rw [add_comm]
    simp only [smul_smul, mul_assoc]
  rw [InnerProductSpace.laplacian_eq_iteratedFDeriv_orthonormalBasis _ b]
  simp only [key]
  rw [Finset.sum_add_distrib, ← Finset.sum_smul, ← Finset.sum_smul]
  have s1 : ∑ i, inner ℝ (b i) (b i) = (Module.finrank ℝ V : ℝ) := by
    simp [b.norm_eq_one]
  have s2 : ∑ i, inner ℝ (x - y) (b i) * inner ℝ (x - y) (b i) = ‖x - y‖ * ‖x - y‖ := by
    have := b.sum_inner_mul_inner (x - y) (x - y)
    rw [real_inner_self_eq_norm_mul_norm] at this
    rw [← this]
    exact Finset.sum_congr rfl fun i _ => by rw [real_inner_comm (x - y) (b i)]
  rw [s1, s2]
  congr 1
  rw [smul_smul]
  congr 1
  field_simp

theorem contDiffAt (g : ℝ → E) (y x : V) (h : x ≠ y) (hc : ∀ r, 0 < r → ContDiffAt ℝ 2 g r) :
    ContDiffAt ℝ 2 (fun z => g ‖z - y‖) x := by
  have hr : 0 < ‖x - y‖ := norm_pos_iff.2 (sub_ne_zero.2 h)
  have : ContDiffAt ℝ 2 (fun z : V => ‖z - y‖) x :=
    (contDiffAt_norm ℝ (sub_ne_zero.2 h)).comp x (contDiffAt_id.sub contDiffAt_const)
  exact (hc _ hr).comp x this

/-- The Laplacian of a radial function times the inner product with a vector `n`; `q r = g' r / r`. -/
theorem laplacian_inner [FiniteDimensional ℝ V] (g g' q' : ℝ → E) (n y x : V) (h : x ≠ y)
    (hg : ∀ r, 0 < r → HasDerivAt g (g' r) r) (hq : ∀ r, 0 < r → HasDerivAt (fun r => (1 / r) • g' r) (q' r) r)
    (hc : ∀ r, 0 < r → ContDiffAt ℝ 2 g r) :
    ContDiffAt ℝ 2 (fun z => inner ℝ (z - y) n • g ‖z - y‖) x ∧
    Laplacian.laplacian (fun z => inner ℝ (z - y) n • g ‖z - y‖) x =
      inner ℝ (x - y) n • (((Module.finrank ℝ V : ℝ) + 2) • (1 / ‖x - y‖) • g' ‖x - y‖ + ‖x - y‖ • q' ‖x - y‖) := by
  have hr : 0 < ‖x - y‖ := norm_pos_iff.2 (sub_ne_zero.2 h)
  set b := stdOrthonormalBasis ℝ V
  have cd : ContDiffAt ℝ 2 (fun z => inner ℝ (z - y) n • g ‖z - y‖) x :=
    ((contDiffAt_id.sub contDiffAt_const).inner ℝ contDiffAt_const).smul (contDiffAt g y x h hc)
  have din : ∀ (w z : V), HasFDerivAt (fun z : V => inner ℝ (z - y) w) ((innerSL ℝ w)) z := by
    intro w z
    have := ((hasFDerivAt_id z).sub_const y).inner ℝ (hasFDerivAt_const w z)
    exact this.congr_fderiv (by ext w; simp [real_inner_comm])
  refine ⟨cd, ?_⟩
  have key : ∀ v : V, iteratedFDeriv ℝ 2 (fun z => inner ℝ (z - y) n • g ‖z - y‖) x ![v, v] =
      (2 * (inner ℝ (x - y) v * inner ℝ n v)) • (1 / ‖x - y‖) • g' ‖x - y‖ +
      inner ℝ (x - y) n • ((inner ℝ v v) • (1 / ‖x - y‖) • g' ‖x - y‖ +
        (inner ℝ (x - y) v * inner ℝ (x - y) v) • (1 / ‖x - y‖) • q' ‖x - y‖) := by
    intro v
    have d1 : DifferentiableAt ℝ (fderiv ℝ fun z => inner ℝ (z - y) n • g ‖z - y‖) x :=
      (cd.fderiv_right (m := 1) (by norm_num)).differentiableAt (by norm_num)
    rw [iteratedFDeriv_two_apply]
    simp only [Matrix.cons_val_zero, Matrix.cons_val_one]
    have e1 : fderiv ℝ (fderiv ℝ fun z => inner ℝ (z - y) n • g ‖z - y‖) x v v =
        fderiv ℝ (fun z => fderiv ℝ (fun z => inner ℝ (z - y) n • g ‖z - y‖) z v) x v := by
      have := (d1.hasFDerivAt.clm_apply (hasFDerivAt_const v x)).fderiv
      rw [this]
      simp
    rw [e1]
    have e2 : (fun z => fderiv ℝ (fun z => inner ℝ (z - y) n • g ‖z - y‖) z v) =ᶠ[𝓝 x]
        fun z => inner ℝ (z - y) n • (inner ℝ (z - y) v • (1 / ‖z - y‖) • g' ‖z - y‖) + inner ℝ n v • g ‖z - y‖ := by
      filter_upwards [isOpen_ne.mem_nhds h] with z hz
      have hz' : 0 < ‖z - y‖ := norm_pos_iff.2 (sub_ne_zero.2 hz)
      have := (din n z).smul (hasFDerivAt g (g' ‖z - y‖) y z hz (hg _ hz'))
      have e : (fun z => inner ℝ (z - y) n • g ‖z - y‖) = (fun z => inner ℝ (z - y) n) • fun z => g ‖z - y‖ := rfl
      rw [e, this.fderiv]
      rfl
    rw [e2.fderiv_eq]
    have d3 := hasFDerivAt (fun r => (1 / r) • g' r) (q' ‖x - y‖) y x h (hq _ hr)
    have d4 : HasFDerivAt (fun z => inner ℝ (z - y) v • (1 / ‖z - y‖) • g' ‖z - y‖) _ x := (din v x).smul d3
    have d5 : HasFDerivAt (fun z => inner ℝ (z - y) n • (inner ℝ (z - y) v • (1 / ‖z - y‖) • g' ‖z - y‖) + inner ℝ n v • g ‖z - y‖) _ x :=
      ((din n x).smul d4).add ((hasFDerivAt g (g' ‖x - y‖) y x h (hg _ hr)).const_smul (inner ℝ n v : ℝ))
    rw [d5.fderiv]
    show inner ℝ (x - y) n • (inner ℝ (x - y) v • inner ℝ (x - y) v • (1 / ‖x - y‖) • q' ‖x - y‖ + inner ℝ v v • (1 / ‖x - y‖) • g' ‖x - y‖) +
      inner ℝ n v • (inner ℝ (x - y) v • (1 / ‖x - y‖) • g' ‖x - y‖) +
      inner ℝ n v • inner ℝ (x - y) v • (1 / ‖x - y‖) • g' ‖x - y‖ = _
    module
  rw [InnerProductSpace.laplacian_eq_iteratedFDeriv_orthonormalBasis _ b]
  simp only [key]
  rw [Finset.sum_add_distrib, ← Finset.sum_smul, ← Finset.smul_sum, Finset.sum_add_distrib, ← Finset.sum_smul, ← Finset.sum_smul,
    ← Finset.mul_sum]
  have s1 : ∑ i, inner ℝ (b i) (b i) = (Module.finrank ℝ V : ℝ) := by
    simp [b.norm_eq_one]
  have s2 : ∀ w, ∑ i, inner ℝ (x - y) (b i) * inner ℝ w (b i) = inner ℝ (x - y) w := by
    intro w
    rw [← b.sum_inner_mul_inner (x - y) w]
    exact Finset.sum_congr rfl fun i _ => by rw [real_inner_comm w (b i)]
  rw [s1, s2, s2, real_inner_self_eq_norm_mul_norm]
  have e : (‖x - y‖ * ‖x - y‖) • (1 / ‖x - y‖) • q' ‖x - y‖ = ‖x - y‖ • q' ‖x - y‖ := by
    rw [smul_smul]; congr 1; field_simp
  rw [e]
  module

end Radial
end Bembel
