import Verif.Lemmas.PolySpace
import Mathlib.MeasureTheory.Integral.DivergenceTheorem
import Mathlib.MeasureTheory.Measure.OpenPos
import Mathlib.Analysis.Calculus.MeanValue
/-! # Harmonic functions with periodic boundary values on the unit cube -/

namespace Bembel.Sph
open Spec Finset Props MeasureTheory

/-- The coordinates as a point. -/
noncomputable def toV : (Fin 3 → ℝ) →L[ℝ] V3 := (EuclideanSpace.equiv (Fin 3) ℝ).symm.toContinuousLinearMap

theorem toV_apply (y : Fin 3 → ℝ) (i : Fin 3) : toV y i = y i := rfl

theorem toV_single (i : Fin 3) : toV (Pi.single i 1) = sb i := rfl

theorem toV_self (x : V3) : toV (fun i => x i) = x := rfl

/-- The energy of a harmonic function with periodic Cauchy data on the faces of the cube is zero. -/
theorem periodic_harmonic (p : V3 → ℝ) (hp : ContDiff ℝ 2 p) (hl : ∀ x, Laplacian.laplacian p x = 0)
    (hv : ∀ (f : Fin 3) (x : V3), x f = -1 / 2 → p x = p (x + sb f))
    (hd : ∀ (f : Fin 3) (x : V3), x f = -1 / 2 → fderiv ℝ p x (sb f) = fderiv ℝ p (x + sb f) (sb f))
    (x : V3) (hx : ∀ i, -1 / 2 < x i ∧ x i < 1 / 2) (i : Fin 3) : fderiv ℝ p x (sb i) = 0 := by
  have hg : ∀ i, ContDiff ℝ 1 (fun x => fderiv ℝ p x (sb i)) := fun i => (hp.fderiv_right (m := 1) (by norm_num)).clm_apply contDiff_const
  have hp1 : ContDiff ℝ 1 p := hp.of_le (by norm_num)
  have hpg : ∀ i, ContDiff ℝ 1 (fun x => p x * fderiv ℝ p x (sb i)) := fun i => hp1.mul (hg i)
  have hdiv : ∀ y : Fin 3 → ℝ, ∑ i, ((fderiv ℝ (fun x => p x * fderiv ℝ p x (sb i)) (toV y)).comp toV) (Pi.single i 1) =
      ∑ i, fderiv ℝ p (toV y) (sb i) ^ 2 := by
    intro y
    have h1 : ∀ i, ((fderiv ℝ (fun x => p x * fderiv ℝ p x (sb i)) (toV y)).comp toV) (Pi.single i 1) =
        p (toV y) * fderiv ℝ (fun x => fderiv ℝ p x (sb i)) (toV y) (sb i) + fderiv ℝ p (toV y) (sb i) ^ 2 := by
      intro i
      rw [ContinuousLinearMap.comp_apply, toV_single, fderiv_mul_apply _ _ _ _ (hp1.differentiable (by norm_num) _) ((hg i).differentiable (by norm_num) _)]
      ring
    rw [sum_congr rfl fun i _ => h1 i, sum_add_distrib, ← mul_sum, ← lap_eq p _ hp.contDiffAt, hl, mul_zero, zero_add]
  have hcont : Continuous fun y : Fin 3 → ℝ => ∑ i, fderiv ℝ p (toV y) (sb i) ^ 2 :=
    continuous_finset_sum _ fun i _ => ((hg i).continuous.comp toV.continuous).pow 2
  have hint : IntegrableOn (fun y : Fin 3 → ℝ => ∑ i, fderiv ℝ p (toV y) (sb i) ^ 2) (Set.Icc (fun _ => -1 / 2) fun _ => 1 / 2) :=
    hcont.continuousOn.integrableOn_compact isCompact_Icc
  have key := integral_divergence_of_hasFDerivAt_off_countable' (n := 2) (E := ℝ) (fun _ => -1 / 2) (fun _ => 1 / 2) (fun _ => by norm_num)
    (fun i y => p (toV y) * fderiv ℝ p (toV y) (sb i)) (fun i y => (fderiv ℝ (fun x => p x * fderiv ℝ p x (sb i)) (toV y)).comp toV) ∅
    Set.countable_empty (fun i => ((hpg i).continuous.comp toV.continuous).continuousOn)
    (fun y _ i => ((hpg i).differentiable (by norm_num) (toV y)).hasFDerivAt.comp y toV.hasFDerivAt)
    (by simp only [hdiv]; exact hint)
  simp only [hdiv] at key
  have hz : ∫ y in Set.Icc (fun _ : Fin 3 => (-1 / 2 : ℝ)) (fun _ => 1 / 2), ∑ i, fderiv ℝ p (toV y) (sb i) ^ 2 = 0 := by
    rw [key]
    refine sum_eq_zero fun i _ => ?_
    rw [sub_eq_zero]
    congr 1
    funext z
    have e : toV (i.insertNth (1 / 2 : ℝ) z) = toV (i.insertNth (-1 / 2 : ℝ) z) + sb i := by
      ext j
      rw [PiLp.add_apply, toV_apply, toV_apply, sb_apply]
      rcases Fin.eq_self_or_eq_succAbove i j with h | ⟨k, h⟩
      · subst h; rw [Fin.insertNth_apply_same, Fin.insertNth_apply_same]; norm_num
      · subst h; rw [Fin.insertNth_apply_succAbove, Fin.insertNth_apply_succAbove, if_neg (Fin.succAbove_ne i k), add_zero]
    have e1 : toV (i.insertNth (-1 / 2 : ℝ) z) i = -1 / 2 := by rw [toV_apply, Fin.insertNth_apply_same]
    rw [e, ← hv i _ e1, ← hd i _ e1]
  have hae := (setIntegral_eq_zero_iff_of_nonneg_ae (Filter.Eventually.of_forall fun y => sum_nonneg fun i _ => sq_nonneg _) hint).1 hz
  have hU : IsOpen (Set.pi Set.univ fun _ : Fin 3 => Set.Ioo (-1 / 2 : ℝ) (1 / 2)) := isOpen_set_pi Set.finite_univ fun _ _ => isOpen_Ioo
  have hsub : (Set.pi Set.univ fun _ : Fin 3 => Set.Ioo (-1 / 2 : ℝ) (1 / 2)) ⊆ Set.Icc (fun _ => -1 / 2) fun _ => 1 / 2 := by
    intro y hy
    exact ⟨fun i => (hy i trivial).1.le, fun i => (hy i trivial).2.le⟩
  have hzero := Measure.eqOn_open_of_ae_eq (ae_restrict_of_ae_restrict_of_subset hsub hae) hU hcont.continuousOn continuousOn_const
    (show (fun i => x i) ∈ _ from fun i _ => hx i)
  simp only [toV_self, Pi.zero_apply] at hzero
  have := (sum_eq_zero_iff_of_nonneg fun j _ => sq_nonneg (fderiv ℝ p x (sb j))).1 hzero i (mem_univ _)
  exact pow_eq_zero_iff (by norm_num) |>.1 this

/-- A harmonic polynomial with periodic Cauchy data is constant. -/
theorem periodic_poly {N : Nat} (p : V3 → ℝ) (hp : p ∈ polySpace N) (hl : ∀ x, Laplacian.laplacian p x = 0)
    (hv : ∀ (f : Fin 3) (x : V3), x f = -1 / 2 → p x = p (x + sb f))
    (hd : ∀ (f : Fin 3) (x : V3), x f = -1 / 2 → fderiv ℝ p x (sb f) = fderiv ℝ p (x + sb f) (sb f)) (x y : V3) : p x = p y := by
  have h0 := periodic_harmonic p (poly_smooth hp) hl hv hd
  have hall : ∀ x i, fderiv ℝ p x (sb i) = 0 := by
    intro x i
    have hb : ∃ B : ℝ, 0 < B ∧ ∀ j, |x j| ≤ B := ⟨∑ j, |x j| + 1, by positivity, fun j =>
      (single_le_sum (f := fun j => |x j|) (fun j _ => abs_nonneg _) (mem_univ j)).trans (by linarith)⟩
    obtain ⟨B, hB, hB2⟩ := hb
    obtain ⟨S, hS1, hS2⟩ := (Set.Ioo_infinite (a := (0:ℝ)) (b := 1 / (2 * B)) (by positivity)).exists_subset_card_eq (N + 1)
    have := line_zero (poly_fderiv hp i) 0 x S (by omega) (fun t ht => by
      refine h0 _ (fun j => ?_) i
      have htt := hS1 ht
      rw [zero_add, PiLp.smul_apply, smul_eq_mul, neg_div, ← abs_lt, abs_mul, abs_of_pos htt.1]
      calc t * |x j| ≤ t * B := mul_le_mul_of_nonneg_left (hB2 j) htt.1.le
        _ < 1 / (2 * B) * B := mul_lt_mul_of_pos_right htt.2 hB
        _ = 1 / 2 := by field_simp) 1
    simpa using this
  refine is_const_of_fderiv_eq_zero (𝕜 := ℝ) ((poly_smooth hp).differentiable (by norm_num)) (fun z => ?_) x y
  apply ContinuousLinearMap.ext
  intro v
  conv_lhs => rw [sum_sb v]
  simp [hall]

end Bembel.Sph
