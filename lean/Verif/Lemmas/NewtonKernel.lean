import Mathlib.Analysis.SpecialFunctions.Pow.Deriv
import Mathlib.Analysis.InnerProductSpace.Basic
import Mathlib.Analysis.Complex.RealDeriv
import Verif.Lemmas.InterpError
/-! # Derivatives of the Newton potential along a line -/

namespace Bembel.Interpol
open Finset

section chain
variable {E : Type} [NormedAddCommGroup E] [NormedSpace ℝ E]

/-- An infinite chain of derivatives gives the iterated derivatives. -/
theorem chain_iter (G : Nat → ℝ → E) (hG : ∀ n, Chain n G) (k : Nat) :
    ∀ s ∈ Set.Icc (0 : ℝ) 1, iteratedDerivWithin k (G 0) (Set.Icc 0 1) s = G k s := by
  induction k with
  | zero => intro s _; simp
  | succ k ih =>
    intro s hs
    rw [iteratedDerivWithin_succ]
    rw [derivWithin_congr ih (ih s hs)]
    exact (hG (k + 1) k (by omega) s hs).derivWithin (uniqueDiffOn_Icc zero_lt_one s hs)

theorem chain_contDiff (n : Nat) (G : Nat → ℝ → E) (hG : ∀ n, Chain n G) : ContDiffOn ℝ n (G 0) (Set.Icc 0 1) := by
  refine contDiffOn_of_differentiableOn_deriv fun m hm => ?_
  intro s hs
  refine DifferentiableWithinAt.congr (hG (m + 1) m (by omega) s hs).differentiableWithinAt (fun y hy => chain_iter G hG m y hy) (chain_iter G hG m s hs)
end chain

/-- Coefficients of the derivatives of `w ^ (-1/2)`. -/
noncomputable def rootCoeff (σ : ℝ) : Nat → ℝ
  | 0 => 1
  | k + 1 => rootCoeff σ k * (σ * (-1 / 2 - k))

theorem rootCoeff_bound (σ : ℝ) (hσ : |σ| = 1) (k : Nat) : |rootCoeff σ k| ≤ k.factorial := by
  induction k with
  | zero => simp [rootCoeff]
  | succ k ih =>
    rw [rootCoeff, abs_mul, abs_mul, hσ, one_mul, Nat.factorial_succ]
    have : |(-1 / 2 - (k : ℝ))| ≤ k + 1 := by
      rw [abs_le]; constructor <;> linarith [(Nat.cast_nonneg k : (0 : ℝ) ≤ k)]
    push_cast
    calc |rootCoeff σ k| * |-1 / 2 - (k : ℝ)| ≤ k.factorial * (k + 1) := mul_le_mul ih this (abs_nonneg _) (by positivity)
      _ = _ := by ring

/-- Derivatives of the complex root of an affine function. -/
theorem root_chain (σ : ℝ) (z : ℂ) (hw : ∀ s ∈ Set.Icc (0 : ℝ) 1, (σ : ℂ) * (s - z) ∈ Complex.slitPlane) (n : Nat) :
    Chain n fun k s => (rootCoeff σ k : ℂ) * ((σ : ℂ) * (s - z)) ^ ((-1 / 2 - k : ℝ) : ℂ) := by
  intro k _ s hs
  have hd : HasDerivWithinAt (fun s : ℝ => (σ : ℂ) * ((s : ℂ) - z)) (σ : ℂ) (Set.Icc 0 1) s := by
    have h1 : HasDerivAt (fun s : ℝ => (s : ℂ)) 1 s := Complex.ofRealCLM.hasDerivAt
    have := ((h1.sub_const z).const_mul (σ : ℂ)).hasDerivWithinAt (s := Set.Icc 0 1)
    simpa using this
  have h2 : HasDerivAt (fun w : ℂ => w ^ ((-1 / 2 - k : ℝ) : ℂ)) (((-1 / 2 - k : ℝ) : ℂ) * ((σ : ℂ) * (s - z)) ^ (((-1 / 2 - k : ℝ) : ℂ) - 1))
      ((σ : ℂ) * (s - z)) := by
    have := (hasDerivAt_id ((σ : ℂ) * (s - z))).cpow_const (c := ((-1 / 2 - k : ℝ) : ℂ)) (hw s hs)
    simpa using this
  have h3 := (h2.comp_hasDerivWithinAt s hd).const_mul (rootCoeff σ k : ℂ)
  refine h3.congr_deriv ?_
  simp only [rootCoeff]
  have e : ((-1 / 2 - k : ℝ) : ℂ) - 1 = ((-1 / 2 - ((k + 1 : Nat) : ℝ) : ℝ) : ℂ) := by push_cast; ring
  rw [e]
  push_cast
  ring

theorem root_norm (σ : ℝ) (hσ : |σ| = 1) (z : ℂ) (s r : ℝ) :
    ‖((σ : ℂ) * (s - z)) ^ ((r : ℝ) : ℂ)‖ = ‖(s : ℂ) - z‖ ^ r := by
  rw [Complex.norm_cpow_real, norm_mul, Complex.norm_real, Real.norm_eq_abs, hσ, one_mul]

/-- The distance to a complex point: derivatives of the reciprocal. -/
theorem recip_chain (σ : ℝ) (hσ : |σ| = 1) (z : ℂ) (hw : ∀ s ∈ Set.Icc (0 : ℝ) 1, (σ : ℂ) * (s - z) ∈ Complex.slitPlane)
    (δ : ℝ) (hδ : 0 < δ) (hd : ∀ s ∈ Set.Icc (0 : ℝ) 1, δ ≤ ‖(s : ℂ) - z‖) (n : Nat) :
    ∃ G : Nat → ℝ → ℝ, Chain n G ∧ (∀ s ∈ Set.Icc (0 : ℝ) 1, G 0 s = 1 / ‖(s : ℂ) - z‖) ∧
      ∀ s ∈ Set.Icc (0 : ℝ) 1, |G n s| ≤ (n + 1) * n.factorial / δ ^ (n + 1) := by
  set A : Nat → ℝ → ℂ := fun k s => (rootCoeff σ k : ℂ) * ((σ : ℂ) * (s - z)) ^ ((-1 / 2 - k : ℝ) : ℂ) with hA
  have cA : ∀ n, Chain n A := root_chain σ z hw
  set B : Nat → ℝ → ℂ := fun k s => (starRingEnd ℂ) (A k s) with hB
  have cB : ∀ n, Chain n B := by
    intro n k hk s hs
    have := Complex.conjCLE.toContinuousLinearMap.hasFDerivAt.comp_hasDerivWithinAt s (cA n k hk s hs)
    exact this
  have hcont : ∀ n : Nat, ContDiffOn ℝ n (A 0 * B 0) (Set.Icc 0 1) := fun n => (chain_contDiff n A cA).mul (chain_contDiff n B cB)
  refine ⟨fun k s => (iteratedDerivWithin k (A 0 * B 0) (Set.Icc 0 1) s).re, ?_, ?_, ?_⟩
  · intro k hk s hs
    exact Complex.reCLM.hasFDerivAt.comp_hasDerivWithinAt s (chain_of_contDiffOn n (A 0 * B 0) (hcont n) k hk s hs)
  · intro s hs
    simp only [iteratedDerivWithin_zero, Pi.mul_apply, hB]
    rw [Complex.mul_conj, Complex.ofReal_re, Complex.normSq_eq_norm_sq, hA]
    simp only [rootCoeff, Complex.ofReal_one, one_mul]
    rw [root_norm σ hσ, ← Real.rpow_natCast, ← Real.rpow_mul (norm_nonneg _)]
    norm_num
    rw [Real.rpow_neg_one]
  · intro s hs
    refine (Complex.abs_re_le_norm _).trans ?_
    have hu : UniqueDiffOn ℝ (Set.Icc (0 : ℝ) 1) := uniqueDiffOn_Icc zero_lt_one
    rw [iteratedDerivWithin_mul hs hu (chain_contDiff n A cA s hs) (chain_contDiff n B cB s hs)]
    refine (norm_sum_le _ _).trans ?_
    have hpos : 0 < ‖(s : ℂ) - z‖ := lt_of_lt_of_le hδ (hd s hs)
    calc ∑ i ∈ range (n + 1), ‖(n.choose i : ℂ) * iteratedDerivWithin i (A 0) (Set.Icc 0 1) s * iteratedDerivWithin (n - i) (B 0) (Set.Icc 0 1) s‖
        ≤ ∑ i ∈ range (n + 1), (n.factorial : ℝ) / δ ^ (n + 1) := by
          refine sum_le_sum fun i hi => ?_
          have hi : i ≤ n := Nat.lt_succ_iff.1 (mem_range.1 hi)
          rw [chain_iter A cA i s hs, chain_iter B cB (n - i) s hs, norm_mul, norm_mul, hB]
          simp only [RCLike.norm_conj, hA, norm_mul, root_norm σ hσ, Complex.norm_natCast, Complex.norm_real, Real.norm_eq_abs]
          have e1 : ‖(s : ℂ) - z‖ ^ (-1 / 2 - (i : ℝ)) * ‖(s : ℂ) - z‖ ^ (-1 / 2 - ((n - i : Nat) : ℝ)) = 1 / ‖(s : ℂ) - z‖ ^ (n + 1) := by
            rw [← Real.rpow_add hpos, one_div, ← Real.rpow_natCast, ← Real.rpow_neg hpos.le]
            congr 1
            rw [Nat.cast_sub hi]; push_cast; ring
          have e2 : (n.choose i : ℝ) * i.factorial * (n - i).factorial = n.factorial := by exact_mod_cast Nat.choose_mul_factorial_mul_factorial hi
          have b1 := rootCoeff_bound σ hσ i
          have b2 := rootCoeff_bound σ hσ (n - i)
          calc (n.choose i : ℝ) * (|rootCoeff σ i| * ‖(s : ℂ) - z‖ ^ (-1 / 2 - (i : ℝ))) * (|rootCoeff σ (n - i)| * ‖(s : ℂ) - z‖ ^ (-1 / 2 - ((n - i : Nat) : ℝ)))
              = (n.choose i : ℝ) * (|rootCoeff σ i| * |rootCoeff σ (n - i)|) *
                (‖(s : ℂ) - z‖ ^ (-1 / 2 - (i : ℝ)) * ‖(s : ℂ) - z‖ ^ (-1 / 2 - ((n - i : Nat) : ℝ))) := by ring
            _ = (n.choose i : ℝ) * (|rootCoeff σ i| * |rootCoeff σ (n - i)|) * (1 / ‖(s : ℂ) - z‖ ^ (n + 1)) := by rw [e1]
            _ ≤ (n.choose i : ℝ) * (i.factorial * (n - i).factorial) * (1 / δ ^ (n + 1)) := by
              refine mul_le_mul (mul_le_mul_of_nonneg_left (mul_le_mul b1 b2 (abs_nonneg _) (by positivity)) (by positivity)) ?_ (by positivity) (by positivity)
              exact one_div_le_one_div_of_le (by positivity) (pow_le_pow_left₀ hδ.le (hd s hs) _)
            _ = _ := by rw [← mul_assoc, e2]; ring
      _ = _ := by rw [sum_const, card_range, nsmul_eq_mul]; push_cast; ring

/-- The Newton potential along a line. -/
theorem newton_chain {V : Type} [NormedAddCommGroup V] [InnerProductSpace ℝ V] (a b : V) (hb : b ≠ 0) (δ : ℝ) (hδ : 0 < δ)
    (hd : ∀ s ∈ Set.Icc (0 : ℝ) 1, δ ≤ ‖a + s • b‖) (n : Nat) :
    ∃ G : Nat → ℝ → ℝ, Chain n G ∧ (∀ s ∈ Set.Icc (0 : ℝ) 1, G 0 s = 1 / ‖a + s • b‖) ∧
      ∀ s ∈ Set.Icc (0 : ℝ) 1, |G n s| ≤ (n + 1) * n.factorial * ‖b‖ ^ n / δ ^ (n + 1) := by
  have hb0 : 0 < ‖b‖ := norm_pos_iff.2 hb
  set α := inner ℝ a b / ‖b‖ ^ 2 with hα
  set ρ := Real.sqrt (‖a‖ ^ 2 / ‖b‖ ^ 2 - α ^ 2) with hρ
  have hnn : 0 ≤ ‖a‖ ^ 2 / ‖b‖ ^ 2 - α ^ 2 := by
    rw [hα, div_pow, sub_nonneg, div_le_div_iff₀ (by positivity) (by positivity)]
    have := abs_real_inner_le_norm a b
    have h2 : (inner ℝ a b) ^ 2 ≤ (‖a‖ * ‖b‖) ^ 2 := by rw [← sq_abs]; exact pow_le_pow_left₀ (abs_nonneg _) this 2
    calc (inner ℝ a b) ^ 2 * ‖b‖ ^ 2 ≤ (‖a‖ * ‖b‖) ^ 2 * ‖b‖ ^ 2 := mul_le_mul_of_nonneg_right h2 (by positivity)
      _ = _ := by ring
  have hρ2 : ρ ^ 2 = ‖a‖ ^ 2 / ‖b‖ ^ 2 - α ^ 2 := Real.sq_sqrt hnn
  set z : ℂ := ⟨-α, ρ⟩ with hz
  have hnorm : ∀ s : ℝ, ‖a + s • b‖ = ‖b‖ * ‖(s : ℂ) - z‖ := by
    intro s
    rw [← sq_eq_sq₀ (norm_nonneg _) (by positivity), mul_pow, ← Complex.normSq_eq_norm_sq, Complex.normSq_apply, norm_add_sq_real, norm_smul,
      inner_smul_right, Real.norm_eq_abs, mul_pow, sq_abs]
    simp only [Complex.sub_re, Complex.ofReal_re, Complex.sub_im, Complex.ofReal_im, hz]
    have e1 : inner ℝ a b = α * ‖b‖ ^ 2 := by rw [hα]; field_simp
    have e2 : ‖a‖ ^ 2 = (ρ ^ 2 + α ^ 2) * ‖b‖ ^ 2 := by rw [hρ2]; field_simp; ring
    rw [e1, e2]; ring
  have hzd : ∀ s ∈ Set.Icc (0 : ℝ) 1, δ / ‖b‖ ≤ ‖(s : ℂ) - z‖ := by
    intro s hs
    rw [div_le_iff₀ hb0, mul_comm, ← hnorm]; exact hd s hs
  have hσ : ∃ σ : ℝ, |σ| = 1 ∧ ∀ s ∈ Set.Icc (0 : ℝ) 1, (σ : ℂ) * (s - z) ∈ Complex.slitPlane := by
    rcases (Real.sqrt_nonneg _ : 0 ≤ ρ).eq_or_lt with h0 | h0
    · have ne : ∀ s ∈ Set.Icc (0 : ℝ) 1, s + α ≠ 0 := by
        intro s hs h
        have h1 := hzd s hs
        have : (s : ℂ) - z = 0 := by
          apply Complex.ext
          · simp only [hz, Complex.sub_re, Complex.ofReal_re, Complex.zero_re]; linarith
          · simp only [hz, Complex.sub_im, Complex.ofReal_im, Complex.zero_im]; linarith
        rw [this, norm_zero] at h1
        have : 0 < δ / ‖b‖ := by positivity
        linarith
      rcases lt_or_ge 0 α with h1 | h1
      · refine ⟨1, by simp, fun s hs => ?_⟩
        rw [Complex.mem_slitPlane_iff]
        left
        simp [hz]
        linarith [hs.1]
      · have h2 : α < -1 := by
          by_contra h2
          push Not at h2
          exact ne (-α) ⟨by linarith, by linarith⟩ (by ring)
        refine ⟨-1, by simp, fun s hs => ?_⟩
        rw [Complex.mem_slitPlane_iff]
        left
        simp [hz]
        linarith [hs.2]
    · refine ⟨1, by simp, fun s hs => ?_⟩
      rw [Complex.mem_slitPlane_iff]
      right
      simp [hz]
      exact h0.ne'
  obtain ⟨σ, hσ, hw⟩ := hσ
  obtain ⟨G, g1, g2, g3⟩ := recip_chain σ hσ z hw (δ / ‖b‖) (by positivity) hzd n
  refine ⟨fun k s => ‖b‖⁻¹ * G k s, fun k hk s hs => (g1 k hk s hs).const_mul _, fun s hs => ?_, fun s hs => ?_⟩
  · simp only []
    rw [g2 s hs, hnorm]; field_simp
  · simp only []
    rw [abs_mul, abs_of_pos (inv_pos.2 hb0)]
    calc ‖b‖⁻¹ * |G n s| ≤ ‖b‖⁻¹ * ((n + 1) * n.factorial / (δ / ‖b‖) ^ (n + 1)) := mul_le_mul_of_nonneg_left (g3 s hs) (by positivity)
      _ = _ := by rw [div_pow, pow_succ ‖b‖]; field_simp

end Bembel.Interpol
