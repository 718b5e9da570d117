import Mathlib.Analysis.Complex.Liouville
import Mathlib.Analysis.Complex.RealDeriv
import Mathlib.Analysis.SpecialFunctions.Complex.LogDeriv
import Mathlib.Analysis.InnerProductSpace.Basic
import Verif.Lemmas.InterpError
import Verif.Lemmas.ChebyshevBound
/-! # Interpolation of analytic functions of the distance along a line -/

namespace Bembel.Interpol
open Finset H2 Metric

/-- Chebyshev interpolation of a function that extends analytically to the discs with radius `ρ`. -/
theorem analytic_error (n : Nat) (hn : 0 < n) (g : ℝ → ℂ) (F : ℂ → ℂ) (U : Set ℂ) (hU : IsOpen U) (hF : DifferentiableOn ℂ F U) (ρ K : ℝ) (hρ : 0 < ρ)
    (hball : ∀ s ∈ Set.Icc (0 : ℝ) 1, closedBall (s : ℂ) ρ ⊆ U) (hK : ∀ s ∈ Set.Icc (0 : ℝ) 1, ∀ z ∈ sphere (s : ℂ) ρ, ‖F z‖ ≤ K)
    (hg : ∀ s ∈ Set.Icc (0 : ℝ) 1, g s = F s) (hx : Distinct (chebychevRoots n) n) (hx01 : ∀ i < n, chebychevRoots n i ∈ Set.Icc (0 : ℝ) 1) :
    ∀ s ∈ Set.Icc (0 : ℝ) 1, ‖interp (chebychevRoots n) n g s - g s‖ ≤ 2 * K * (1 / (4 * ρ)) ^ n := by
  intro s hs
  have hmem : ∀ s ∈ Set.Icc (0 : ℝ) 1, (s : ℂ) ∈ U := fun s hs => hball s hs (mem_closedBall_self hρ.le)
  have hA : ∀ s ∈ Set.Icc (0 : ℝ) 1, AnalyticAt ℂ F (s : ℂ) := fun s hs => hF.analyticAt (hU.mem_nhds (hmem s hs))
  have hch : Chain n fun k s => iteratedDeriv k F (s : ℂ) := by
    intro k _ s hs
    have h1 : DifferentiableAt ℂ (iteratedDeriv k F) (s : ℂ) := by
      rw [iteratedDeriv_eq_iterate]
      exact ((hA s hs).iterated_deriv k).differentiableAt
    have h2 := h1.hasDerivAt.comp_ofReal
    rw [← iteratedDeriv_succ] at h2
    exact h2.hasDerivWithinAt
  have e0 : interp (chebychevRoots n) n g s = interp (chebychevRoots n) n (fun s => F (s : ℂ)) s := by
    unfold interp
    refine sum_congr rfl fun i hi => ?_
    rw [hg _ (hx01 i (mem_range.1 hi))]
  rw [e0, hg s hs]
  have err := error_one (R := ℂ) n _ hx hx01 _ hch (n.factorial * K / ρ ^ n) (fun s hs =>
    Complex.norm_iteratedDeriv_le_of_forall_mem_sphere_norm_le n hρ (hF.diffContOnCl_ball (hball s hs)) (hK s hs)) s hs
  simp only [iteratedDeriv_zero] at err
  have hK0 : 0 ≤ K := by
    have hz : ((s : ℂ) + (ρ : ℂ)) ∈ sphere (s : ℂ) ρ := by
      rw [mem_sphere_iff_norm, add_sub_cancel_left, Complex.norm_real, Real.norm_of_nonneg hρ.le]
    exact (norm_nonneg _).trans (hK s hs _ hz)
  refine err.trans ?_
  calc n.factorial * K / ρ ^ n / n.factorial * ∏ i ∈ range n, |s - chebychevRoots n i|
      ≤ n.factorial * K / ρ ^ n / n.factorial * (2 / 4 ^ n) := mul_le_mul_of_nonneg_left (node_bound n hn s hs) (by positivity)
    _ = _ := by
      have : (n.factorial : ℝ) ≠ 0 := by positivity
      rw [div_pow, mul_pow, one_pow]
      field_simp

/-- A quadratic polynomial with roots of modulus `r`. -/
theorem quad_disc (r μ θ : ℝ) (hr : 0 < r) (hμ : |μ| ≤ r) (hθ1 : θ < 1) (W : ℂ) (hW : ‖W‖ ≤ θ * r) :
    ((r : ℂ) ^ 2 + 2 * μ * W + W ^ 2) ∈ Complex.slitPlane ∧ ((1 - θ) * r) ^ 2 ≤ ‖(r : ℂ) ^ 2 + 2 * μ * W + W ^ 2‖ ∧
      ‖(r : ℂ) ^ 2 + 2 * μ * W + W ^ 2‖ ≤ ((1 + θ) * r) ^ 2 := by
  have hμ2 : μ ^ 2 ≤ r ^ 2 := by rw [← sq_abs]; exact pow_le_pow_left₀ (abs_nonneg _) hμ 2
  set ν := Real.sqrt (r ^ 2 - μ ^ 2) with hν
  have hν2 : ν ^ 2 = r ^ 2 - μ ^ 2 := Real.sq_sqrt (by linarith)
  have hfac : (r : ℂ) ^ 2 + 2 * μ * W + W ^ 2 = (W + (μ + ν * Complex.I)) * (W + (μ - ν * Complex.I)) := by
    have h : ((ν ^ 2 : ℝ) : ℂ) = ((r ^ 2 - μ ^ 2 : ℝ) : ℂ) := by rw [hν2]
    push_cast at h
    linear_combination -h + (ν : ℂ) ^ 2 * Complex.I_sq
  have hroot : ‖(μ + ν * Complex.I : ℂ)‖ = r ∧ ‖(μ - ν * Complex.I : ℂ)‖ = r := by
    have a : ∀ ν : ℝ, ν ^ 2 = r ^ 2 - μ ^ 2 → ‖(μ + ν * Complex.I : ℂ)‖ = r := by
      intro ν h
      rw [Complex.norm_add_mul_I, h, show μ ^ 2 + (r ^ 2 - μ ^ 2) = r ^ 2 by ring, Real.sqrt_sq hr.le]
    refine ⟨a ν hν2, ?_⟩
    have := a (-ν) (by rw [neg_sq, hν2])
    rw [← this]; push_cast; congr 1; ring
  have low : ∀ w : ℂ, ‖w‖ = r → (1 - θ) * r ≤ ‖W + w‖ ∧ ‖W + w‖ ≤ (1 + θ) * r := by
    intro w hw
    constructor
    · have := norm_sub_norm_le w (-W)
      rw [norm_neg, sub_neg_eq_add, add_comm w W] at this
      linarith
    · exact (norm_add_le _ _).trans (by linarith)
  refine ⟨?_, ?_, ?_⟩
  · by_contra hns
    rw [Complex.mem_slitPlane_iff, not_or, not_lt, not_not] at hns
    obtain ⟨h1, h2⟩ := hns
    have hWsq : W.re ^ 2 + W.im ^ 2 < r ^ 2 := by
      have : ‖W‖ < r := hW.trans_lt (by nlinarith)
      have h := pow_lt_pow_left₀ this (norm_nonneg _) two_ne_zero
      rwa [← Complex.normSq_eq_norm_sq, Complex.normSq_apply, ← pow_two, ← pow_two] at h
    have hre : ((r : ℂ) ^ 2 + 2 * μ * W + W ^ 2).re = r ^ 2 + 2 * μ * W.re + (W.re ^ 2 - W.im ^ 2) := by
      simp [pow_two, Complex.mul_re, Complex.mul_im]
    have him : ((r : ℂ) ^ 2 + 2 * μ * W + W ^ 2).im = 2 * (W.re + μ) * W.im := by
      simp [pow_two, Complex.mul_re, Complex.mul_im]; ring
    rw [hre] at h1
    rw [him] at h2
    rcases mul_eq_zero.1 h2 with h | h
    · have : W.re = -μ := by linarith
      rw [this] at h1 hWsq
      nlinarith
    · rw [h] at h1 hWsq
      nlinarith [sq_nonneg (W.re + μ)]
  · rw [hfac, norm_mul, pow_two]
    have h0 : 0 ≤ (1 - θ) * r := mul_nonneg (by linarith) hr.le
    exact mul_le_mul (low _ hroot.1).1 (low _ hroot.2).1 h0 (norm_nonneg _)
  · rw [hfac, norm_mul, pow_two]
    exact mul_le_mul (low _ hroot.1).2 (low _ hroot.2).2 (norm_nonneg _) ((norm_nonneg _).trans (low _ hroot.1).2)

/-- Square croot on the slit plane. -/
noncomputable def croot (w : ℂ) : ℂ := Complex.exp (Complex.log w / 2)

theorem croot_norm (w : ℂ) (hw : w ≠ 0) : ‖croot w‖ = Real.sqrt ‖w‖ := by
  unfold croot
  rw [Complex.norm_exp]
  have : (Complex.log w / 2).re = Real.log ‖w‖ / 2 := by
    rw [Complex.div_ofNat_re, Complex.log_re]
  rw [this, Real.sqrt_eq_rpow, Real.rpow_def_of_pos (norm_pos_iff.2 hw)]
  congr 1; ring

theorem croot_real (x : ℝ) (hx : 0 < x) : croot ((x ^ 2 : ℝ) : ℂ) = x := by
  unfold croot
  rw [← Complex.ofReal_log (by positivity), Real.log_pow]
  push_cast
  rw [mul_div_cancel_left₀ _ two_ne_zero, ← Complex.ofReal_exp, Real.exp_log hx]

/-- Functions of the form (affine function of the position) * (analytic function of the distance), along a line. -/
theorem radial_line {V : Type} [NormedAddCommGroup V] [InnerProductSpace ℝ V] (Φ : ℂ → ℂ) (hΦ : DifferentiableOn ℂ Φ {z | z ≠ 0}) (κ : ℂ) (N : V)
    (δ D θ : ℝ) (hδ : 0 < δ) (hθ0 : 0 < θ) (hθ1 : θ < 1) : ∃ K, 0 ≤ K ∧ ∀ (n : Nat), 0 < n → Distinct (chebychevRoots n) n →
      (∀ i < n, chebychevRoots n i ∈ Set.Icc (0 : ℝ) 1) → ∀ (a b : V), b ≠ 0 → ∀ β, ‖b‖ ≤ β * δ →
      (∀ s ∈ Set.Icc (0 : ℝ) 1, δ ≤ ‖a + s • b‖ ∧ ‖a + s • b‖ ≤ D) → ∀ g : ℝ → ℂ,
      (∀ s ∈ Set.Icc (0 : ℝ) 1, g s = (κ + ((inner ℝ (a + s • b) N : ℝ) : ℂ)) * Φ (‖a + s • b‖ : ℝ)) →
      ∀ s ∈ Set.Icc (0 : ℝ) 1, ‖interp (chebychevRoots n) n g s - g s‖ ≤ 2 * K * (β / (4 * θ)) ^ n := by
  have hcomp : IsCompact {z : ℂ | (1 - θ) * δ ≤ ‖z‖ ∧ ‖z‖ ≤ 2 * D} := by
    refine (isCompact_closedBall (0 : ℂ) (2 * D)).of_isClosed_subset ?_ fun z hz => by simpa using hz.2
    exact (isClosed_le continuous_const continuous_norm).inter (isClosed_le continuous_norm continuous_const)
  have hsub : {z : ℂ | (1 - θ) * δ ≤ ‖z‖ ∧ ‖z‖ ≤ 2 * D} ⊆ {z | z ≠ 0} := by
    rintro z ⟨h1, -⟩ rfl
    rw [norm_zero] at h1
    nlinarith [mul_pos (sub_pos.2 hθ1) hδ]
  obtain ⟨K0, hK0⟩ := hcomp.exists_bound_of_continuousOn (hΦ.continuousOn.mono hsub)
  refine ⟨(‖κ‖ + 2 * |D| * ‖N‖) * |K0|, by positivity, fun n hn hx hx01 a b hb β hβ hd g hg s hs => ?_⟩
  have hb' : 0 < ‖b‖ := norm_pos_iff.2 hb
  -- the polynomial
  let q : ℂ → ℂ := fun z => (‖a‖ : ℂ) ^ 2 + 2 * ((inner ℝ a b : ℝ) : ℂ) * z + (‖b‖ : ℂ) ^ 2 * z ^ 2
  let F : ℂ → ℂ := fun z => (κ + ((inner ℝ a N : ℝ) : ℂ) + ((inner ℝ b N : ℝ) : ℂ) * z) * Φ (croot (q z))
  let U : Set ℂ := {z | q z ∈ Complex.slitPlane}
  have qdiff : Differentiable ℂ q := by unfold q; fun_prop
  have hU : IsOpen U := Complex.isOpen_slitPlane.preimage qdiff.continuous
  have hF : DifferentiableOn ℂ F U := by
    intro z hz
    have h1 : DifferentiableAt ℂ (fun z => croot (q z)) z := by
      unfold croot
      exact (((Complex.differentiableAt_log hz).comp z (qdiff z)).div_const 2).cexp
    have h2 : DifferentiableAt ℂ Φ (croot (q z)) :=
      (hΦ _ (Complex.exp_ne_zero _)).differentiableAt (isOpen_ne.mem_nhds (Complex.exp_ne_zero _))
    have h3 : DifferentiableAt ℂ (fun z => Φ (croot (q z))) z := h2.comp z h1
    have h4 : DifferentiableAt ℂ (fun z : ℂ => κ + ((inner ℝ a N : ℝ) : ℂ) + ((inner ℝ b N : ℝ) : ℂ) * z) z := by fun_prop
    exact (h4.mul h3).differentiableWithinAt
  have qeq : ∀ (s : ℝ) (z : ℂ), q z = (‖a + s • b‖ : ℂ) ^ 2 + 2 * (((inner ℝ (a + s • b) b / ‖b‖ : ℝ)) : ℂ) * (‖b‖ * (z - s)) + (‖b‖ * (z - s)) ^ 2 := by
    intro s z
    have hb0 : (‖b‖ : ℂ) ≠ 0 := by exact_mod_cast hb'.ne'
    have e1 : (‖a + s • b‖ : ℂ) ^ 2 = (‖a‖ : ℂ) ^ 2 + 2 * (s * ((inner ℝ a b : ℝ) : ℂ)) + (s : ℂ) ^ 2 * (‖b‖ : ℂ) ^ 2 := by
      have := norm_add_sq_real a (s • b)
      rw [inner_smul_right, norm_smul, mul_pow, Real.norm_eq_abs, sq_abs] at this
      exact_mod_cast this
    have e2 : ((inner ℝ (a + s • b) b : ℝ) : ℂ) = ((inner ℝ a b : ℝ) : ℂ) + s * (‖b‖ : ℂ) ^ 2 := by
      rw [inner_add_left, inner_smul_left, real_inner_self_eq_norm_sq]
      push_cast; simp
    rw [e1]
    push_cast
    rw [e2]
    unfold q
    field_simp
    ring
  -- one disc
  set ρ := θ * δ / ‖b‖ with hρ
  have hρ0 : 0 < ρ := by rw [hρ]; positivity
  have disc : ∀ s ∈ Set.Icc (0 : ℝ) 1, ∀ z : ℂ, ‖z - s‖ ≤ ρ → q z ∈ Complex.slitPlane ∧ (1 - θ) * δ ≤ ‖croot (q z)‖ ∧ ‖croot (q z)‖ ≤ 2 * D ∧
      ‖κ + ((inner ℝ a N : ℝ) : ℂ) + ((inner ℝ b N : ℝ) : ℂ) * z‖ ≤ ‖κ‖ + 2 * D * ‖N‖ := by
    intro s hs z hz
    obtain ⟨d1, d2⟩ := hd s hs
    have hr : 0 < ‖a + s • b‖ := hδ.trans_le d1
    have hμ : |inner ℝ (a + s • b) b / ‖b‖| ≤ ‖a + s • b‖ := by
      rw [abs_div, abs_of_pos hb', div_le_iff₀ hb']
      exact abs_real_inner_le_norm _ _
    have hbz : ‖(‖b‖ : ℂ) * (z - s)‖ ≤ θ * δ := by
      rw [norm_mul, Complex.norm_real, norm_norm]
      calc ‖b‖ * ‖z - s‖ ≤ ‖b‖ * ρ := mul_le_mul_of_nonneg_left hz hb'.le
        _ = θ * δ := by rw [hρ]; field_simp
    have hW : ‖(‖b‖ : ℂ) * (z - s)‖ ≤ θ * ‖a + s • b‖ := hbz.trans (mul_le_mul_of_nonneg_left d1 hθ0.le)
    obtain ⟨p1, p2, p3⟩ := quad_disc _ _ θ hr hμ hθ1 _ hW
    rw [← qeq s z] at p1 p2 p3
    have hq0 : q z ≠ 0 := Complex.slitPlane_ne_zero p1
    refine ⟨p1, ?_, ?_, ?_⟩
    · rw [croot_norm _ hq0]
      refine Real.le_sqrt_of_sq_le (le_trans ?_ p2)
      have : 0 ≤ 1 - θ := by linarith
      gcongr
    · rw [croot_norm _ hq0]
      have hD0 : 0 ≤ D := hr.le.trans d2
      refine Real.sqrt_le_iff.2 ⟨by positivity, p3.trans ?_⟩
      have : (1 + θ) * ‖a + s • b‖ ≤ 2 * D := mul_le_mul (by linarith) d2 hr.le (by norm_num)
      exact pow_le_pow_left₀ (by positivity) this 2
    · have e : κ + ((inner ℝ a N : ℝ) : ℂ) + ((inner ℝ b N : ℝ) : ℂ) * z =
          κ + (((inner ℝ (a + s • b) N : ℝ) : ℂ) + ((inner ℝ b N : ℝ) : ℂ) * (z - s)) := by
        rw [inner_add_left, inner_smul_left]
        push_cast
        simp only [conj_trivial]
        ring
      rw [e]
      refine (norm_add_le _ _).trans (add_le_add_right ((norm_add_le _ _).trans ?_) _)
      rw [norm_mul, Complex.norm_real, Complex.norm_real]
      have f1 : ‖inner ℝ (a + s • b) N‖ ≤ D * ‖N‖ := (norm_inner_le_norm _ _).trans (mul_le_mul_of_nonneg_right d2 (norm_nonneg _))
      have f2 : ‖inner ℝ b N‖ * ‖z - s‖ ≤ D * ‖N‖ := by
        rw [norm_mul, Complex.norm_real, norm_norm] at hbz
        calc ‖inner ℝ b N‖ * ‖z - s‖ ≤ ‖b‖ * ‖N‖ * ‖z - s‖ := mul_le_mul_of_nonneg_right (norm_inner_le_norm _ _) (norm_nonneg _)
          _ = (‖b‖ * ‖z - s‖) * ‖N‖ := by ring
          _ ≤ (θ * δ) * ‖N‖ := mul_le_mul_of_nonneg_right hbz (norm_nonneg _)
          _ ≤ D * ‖N‖ := mul_le_mul_of_nonneg_right (by nlinarith [d1.trans d2]) (norm_nonneg _)
      linarith
  have hD0 : 0 ≤ D := hδ.le.trans ((hd s hs).1.trans (hd s hs).2)
  have err := analytic_error n hn g F U hU hF ρ ((‖κ‖ + 2 * |D| * ‖N‖) * |K0|) hρ0
    (fun s hs z hz => (disc s hs z (by rwa [mem_closedBall_iff_norm] at hz)).1)
    (fun s hs z hz => by
      obtain ⟨-, h1, h2, h3⟩ := disc s hs z (le_of_eq (by rwa [mem_sphere_iff_norm] at hz))
      show ‖_ * _‖ ≤ _
      rw [norm_mul, abs_of_nonneg hD0]
      exact mul_le_mul h3 ((hK0 _ ⟨h1, h2⟩).trans (le_abs_self _)) (norm_nonneg _) ((norm_nonneg _).trans h3))
    (fun s hs => by
      rw [hg s hs]
      show _ = _ * _
      have hr : 0 < ‖a + s • b‖ := hδ.trans_le (hd s hs).1
      have e : q s = ((‖a + s • b‖ ^ 2 : ℝ) : ℂ) := by rw [qeq s s]; push_cast; ring
      rw [e, croot_real _ hr, inner_add_left, inner_smul_left]
      push_cast
      simp only [conj_trivial]
      ring) hx hx01 s hs
  refine err.trans (mul_le_mul_of_nonneg_left (pow_le_pow_left₀ (by positivity) ?_ n) (by positivity))
  rw [hρ, div_le_div_iff₀ (by positivity) (by positivity), one_mul]
  calc 4 * θ = 4 * θ * (‖b‖ / ‖b‖) := by rw [div_self hb'.ne', mul_one]
    _ = ‖b‖ * (4 * θ / ‖b‖) := by ring
    _ ≤ β * δ * (4 * θ / ‖b‖) := mul_le_mul_of_nonneg_right hβ (by positivity)
    _ = β * (4 * (θ * δ / ‖b‖)) := by ring

end Bembel.Interpol
