import Mathlib.Analysis.SpecialFunctions.Bernstein
import Mathlib.Analysis.Calculus.MeanValue
import Mathlib.Analysis.Calculus.Deriv.Pow
import Mathlib.Analysis.Calculus.Deriv.Add
import Mathlib.Analysis.Calculus.Deriv.Mul
import Verif.Lemmas.InterpError
/-! # Polynomial approximation of smooth functions -/

namespace Bembel.Interpol
open Finset H2 unitInterval

variable {E : Type} [NormedAddCommGroup E] [NormedSpace ℝ E]

/-- `f` is a polynomial of degree at most `d`. -/
def VPoly (d : Nat) (f : ℝ → E) : Prop := ∃ c : Nat → E, ∀ x, f x = ∑ i ∈ range (d + 1), x ^ i • c i

theorem VPoly.add {d : Nat} {f g : ℝ → E} (hf : VPoly d f) (hg : VPoly d g) : VPoly d fun x => f x + g x := by
  obtain ⟨c, hc⟩ := hf
  obtain ⟨e, he⟩ := hg
  exact ⟨fun i => c i + e i, fun x => by simp only []; rw [hc, he, ← sum_add_distrib]; exact sum_congr rfl fun i _ => (smul_add _ _ _).symm⟩

theorem VPoly.zero (d : Nat) : VPoly d fun _ => (0 : E) := ⟨fun _ => 0, fun x => by simp⟩

theorem VPoly.sum {ι : Type} (s : Finset ι) {d : Nat} (f : ι → ℝ → E) (hf : ∀ i ∈ s, VPoly d (f i)) : VPoly d fun x => ∑ i ∈ s, f i x := by
  classical
  induction s using Finset.induction_on with
  | empty => simpa using VPoly.zero d
  | insert a s ha ih =>
    simp only [sum_insert ha]
    exact (hf a (mem_insert_self _ _)).add (ih fun i hi => hf i (mem_insert_of_mem hi))

theorem VPoly.of_poly {d : Nat} (p : Polynomial ℝ) (hp : p.natDegree ≤ d) (v : E) : VPoly d fun x => p.eval x • v := by
  refine ⟨fun i => p.coeff i • v, fun x => ?_⟩
  simp only []
  rw [Polynomial.eval_eq_sum_range' (Nat.lt_succ_of_le hp), sum_smul]
  exact sum_congr rfl fun i _ => by rw [smul_smul, mul_comm]

theorem VPoly.antideriv {d : Nat} {f : ℝ → E} (hf : VPoly d f) : ∃ F : ℝ → E, VPoly (d + 1) F ∧ ∀ x, HasDerivAt F (f x) x := by
  obtain ⟨c, hc⟩ := hf
  refine ⟨fun x => ∑ i ∈ range (d + 1), x ^ (i + 1) • ((i + 1 : ℝ)⁻¹ • c i), ⟨fun i => if i = 0 then 0 else ((i : ℝ))⁻¹ • c (i - 1), fun x => ?_⟩,
    fun x => ?_⟩
  · rw [sum_range_succ' _ (d + 1)]
    simp
  · rw [hc]
    refine HasDerivAt.fun_sum fun i _ => ?_
    have h := ((hasDerivAt_pow (i + 1) x).smul_const ((i + 1 : ℝ)⁻¹ • c i))
    refine h.congr_deriv ?_
    rw [smul_smul]
    congr 1
    have : ((i : ℝ) + 1) ≠ 0 := by positivity
    push_cast
    field_simp

/-- Bernstein polynomials approximate Lipschitz continuous functions. -/
theorem bernstein_lipschitz (n : Nat) (hn : 0 < n) (g : ℝ → E) (L : ℝ)
    (hg : ∀ x ∈ Set.Icc (0 : ℝ) 1, ∀ y ∈ Set.Icc (0 : ℝ) 1, ‖g x - g y‖ ≤ L * |x - y|) :
    ∃ q : ℝ → E, VPoly n q ∧ ∀ x ∈ Set.Icc (0 : ℝ) 1, ‖g x - q x‖ ≤ L / (2 * √n) := by
  refine ⟨fun x => ∑ k : Fin (n + 1), (bernsteinPolynomial ℝ n k).eval x • g ((k : ℝ) / n), VPoly.sum _ _ fun k _ => VPoly.of_poly _ ?_ _, ?_⟩
  · have hk : (k : Nat) ≤ n := Nat.lt_succ_iff.1 k.2
    unfold bernsteinPolynomial
    have h1 : (((n.choose k : Nat) : Polynomial ℝ) * Polynomial.X ^ (k : Nat)).natDegree ≤ (k : Nat) := by
      refine (Polynomial.natDegree_mul_le).trans ?_
      rw [Polynomial.natDegree_natCast, zero_add]
      exact Polynomial.natDegree_X_pow_le _
    have h2 : ((1 - Polynomial.X : Polynomial ℝ) ^ (n - (k : Nat))).natDegree ≤ n - (k : Nat) := by
      refine (Polynomial.natDegree_pow_le).trans ?_
      have : (1 - Polynomial.X : Polynomial ℝ).natDegree ≤ 1 := (Polynomial.natDegree_sub_le _ _).trans (by simp)
      exact (Nat.mul_le_mul_left _ this).trans (by omega)
    exact (Polynomial.natDegree_mul_le).trans (by omega)
  intro x hx
  have hn' : (0 : ℝ) < n := by exact_mod_cast hn
  have hL : 0 ≤ L := by
    have := hg 0 (by simp) 1 (by simp)
    simp at this
    exact (norm_nonneg _).trans this
  let xx : I := ⟨x, hx⟩
  have b : ∀ k : Fin (n + 1), (bernsteinPolynomial ℝ n k).eval x = bernstein n k xx := fun k => by
    rw [bernstein_apply, bernsteinPolynomial]; simp [xx]
  have b0 : ∀ k : Fin (n + 1), 0 ≤ bernstein n k xx := fun k => bernstein_nonneg
  have b1 : ∑ k : Fin (n + 1), bernstein n k xx = 1 := bernstein.probability n xx
  have b2 : ∑ k : Fin (n + 1), (x - (k : ℝ) / n) ^ 2 * bernstein n k xx = x * (1 - x) / n := bernstein.variance hn.ne' xx
  simp only [b]
  have e1 : g x - ∑ k : Fin (n + 1), bernstein n k xx • g ((k : ℝ) / n) = ∑ k : Fin (n + 1), bernstein n k xx • (g x - g ((k : ℝ) / n)) := by
    simp only [smul_sub, sum_sub_distrib, ← sum_smul, b1, one_smul]
  rw [e1]
  have e2 : ‖∑ k : Fin (n + 1), bernstein n k xx • (g x - g ((k : ℝ) / n))‖ ≤ ∑ k : Fin (n + 1), bernstein n k xx * (L * |x - (k : ℝ) / n|) := by
    refine (norm_sum_le _ _).trans (sum_le_sum fun k _ => ?_)
    rw [norm_smul, Real.norm_of_nonneg (b0 k)]
    refine mul_le_mul_of_nonneg_left (hg x hx _ ⟨by positivity, ?_⟩) (b0 k)
    rw [div_le_one hn']
    exact_mod_cast Nat.lt_succ_iff.1 k.2
  refine e2.trans ?_
  have s0 : 0 < √(n : ℝ) := Real.sqrt_pos.2 hn'
  have ss : √(n : ℝ) * √n = n := Real.mul_self_sqrt hn'.le
  -- |t| ≤ √n t² / ... by the inequality of the means
  have e3 : ∀ t : ℝ, |t| ≤ √n * t ^ 2 + 1 / (4 * √n) := fun t => by
    have h : 0 ≤ (√n * |t| - 1 / 2) ^ 2 := sq_nonneg _
    have h2 : t ^ 2 = |t| ^ 2 := (sq_abs t).symm
    rw [h2]
    rw [← sub_nonneg]
    have : √n * |t| ^ 2 + 1 / (4 * √n) - |t| = (√n * |t| - 1 / 2) ^ 2 / √n := by field_simp; ring
    rw [this]; positivity
  calc ∑ k : Fin (n + 1), bernstein n k xx * (L * |x - (k : ℝ) / n|)
      ≤ ∑ k : Fin (n + 1), bernstein n k xx * (L * (√n * (x - (k : ℝ) / n) ^ 2 + 1 / (4 * √n))) :=
        sum_le_sum fun k _ => mul_le_mul_of_nonneg_left (mul_le_mul_of_nonneg_left (e3 _) hL) (b0 k)
    _ = L * √n * ∑ k : Fin (n + 1), (x - (k : ℝ) / n) ^ 2 * bernstein n k xx + L / (4 * √n) * ∑ k : Fin (n + 1), bernstein n k xx := by
        rw [mul_sum, mul_sum, ← sum_add_distrib]; exact sum_congr rfl fun k _ => by ring
    _ = L * √n * (x * (1 - x) / n) + L / (4 * √n) := by rw [b2, b1, mul_one]
    _ ≤ L * √n * ((1 / 4) / n) + L / (4 * √n) := by
        gcongr
        nlinarith [sq_nonneg (x - 1 / 2)]
    _ = L / (2 * √n) := by
        have : (n : ℝ) = √n * √n := ss.symm
        rw [show L * √n * ((1 / 4) / (n : ℝ)) = L / (4 * √n) by
          conv_lhs => rw [show (1 / 4 : ℝ) / (n : ℝ) = 1 / 4 / (√n * √n) by rw [ss]]
          field_simp]
        field_simp; ring

/-- Functions with `m` bounded derivatives. -/
theorem jackson (m : Nat) : ∀ (e : Nat) (G : Nat → ℝ → E), Chain m G → ∀ (D : ℝ), (∀ s ∈ Set.Icc (0 : ℝ) 1, ‖G m s‖ ≤ D) →
    ∃ q : ℝ → E, VPoly (e + m) q ∧ ∀ x ∈ Set.Icc (0 : ℝ) 1, ‖G 0 x - q x‖ ≤ D / (2 * √(e + 1)) ^ m := by
  induction m with
  | zero => exact fun e G _ D hD => ⟨fun _ => 0, VPoly.zero _, fun x hx => by simpa using hD x hx⟩
  | succ m ih =>
    intro e G hG D hD
    obtain ⟨q, hq, hqe⟩ := ih e (fun k => G (k + 1)) (fun k hk => hG (k + 1) (by omega)) D hD
    obtain ⟨F, hF, hFd⟩ := hq.antideriv
    have lip : ∀ x ∈ Set.Icc (0 : ℝ) 1, ∀ y ∈ Set.Icc (0 : ℝ) 1, ‖(G 0 x - F x) - (G 0 y - F y)‖ ≤ D / (2 * √(e + 1)) ^ m * |x - y| := by
      intro x hx y hy
      have := (convex_Icc (0 : ℝ) 1).norm_image_sub_le_of_norm_hasDerivWithin_le (f := fun x => G 0 x - F x) (f' := fun x => G 1 x - q x)
        (C := D / (2 * √(e + 1)) ^ m) (fun s hs => (hG 0 (by omega) s hs).sub (hFd s).hasDerivWithinAt) (fun s hs => hqe s hs) hy hx
      simpa [Real.norm_eq_abs] using this
    obtain ⟨r, hr, hre⟩ := bernstein_lipschitz (e + m + 1) (by omega) (fun x => G 0 x - F x) _ lip
    refine ⟨fun x => F x + r x, hF.add hr, fun x hx => ?_⟩
    have := hre x hx
    rw [← sub_sub]
    refine this.trans ?_
    have D0 : 0 ≤ D := (norm_nonneg _).trans (hD 0 (by simp))
    rw [pow_succ]
    have : √((e : ℝ) + 1) ≤ √(((e + m + 1 : Nat)) : ℝ) := Real.sqrt_le_sqrt (by push_cast; linarith [Nat.cast_nonneg (α := ℝ) m])
    have h0 : 0 < √((e : ℝ) + 1) := Real.sqrt_pos.2 (by positivity)
    have e0 : 0 ≤ D / (2 * √((e : ℝ) + 1)) ^ m := div_nonneg D0 (by positivity)
    have e1 : 0 < 2 * √((e : ℝ) + 1) := by positivity
    have e2 : 2 * √((e : ℝ) + 1) ≤ 2 * √(((e + m + 1 : Nat)) : ℝ) := by linarith
    exact (div_le_div_of_nonneg_left e0 e1 e2).trans_eq (div_div _ _ _)

end Bembel.Interpol
