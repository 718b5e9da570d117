import Mathlib.Analysis.SpecialFunctions.Trigonometric.Chebyshev.RootsExtrema
import Mathlib.LinearAlgebra.Lagrange
import Verif.Model.H2Multipole
import Verif.Spec.Multipole
/-! # Chebyshev points on the unit interval: Lebesgue constant and node polynomial -/

namespace Bembel.Interpol
open Finset H2 Polynomial Real

/-- Angle of point number `i`. -/
noncomputable def ang (n i : Nat) : ℝ := π / (2 * n) * (2 * ((n : ℝ) - i) - 1)

theorem cheb_eq (n i : Nat) : chebychevRoots n i = (cos (ang n i) + 1) / 2 := by
  unfold chebychevRoots ang; ring

theorem ang_mem (n i : Nat) (hi : i < n) : 0 < ang n i ∧ ang n i < π := by
  have hn : (0 : ℝ) < n := by exact_mod_cast (by omega : 0 < n)
  have hi' : (i : ℝ) + 1 ≤ n := by exact_mod_cast hi
  have hi0 : (0 : ℝ) ≤ i := by positivity
  unfold ang
  constructor
  · have := pi_pos
    have : 0 < 2 * ((n : ℝ) - i) - 1 := by linarith
    positivity
  · rw [div_mul_eq_mul_div, div_lt_iff₀ (by positivity)]
    nlinarith [pi_pos]

theorem n_ang (n i : Nat) (hi : i < n) : (n : ℝ) * ang n i = ((n - 1 - i : Nat) : ℝ) * π + π / 2 := by
  have hn : (0 : ℝ) < n := by exact_mod_cast (by omega : 0 < n)
  unfold ang
  rw [Nat.cast_sub (by omega), Nat.cast_sub (by omega)]
  field_simp
  push_cast
  ring

theorem cos_n_ang (n i : Nat) (hi : i < n) : cos (n * ang n i) = 0 := by
  rw [n_ang n i hi, cos_add_pi_div_two, sin_nat_mul_pi, neg_zero]

theorem abs_sin_n_ang (n i : Nat) (hi : i < n) : |sin (n * ang n i)| = 1 := by
  have := sin_sq_add_cos_sq (n * ang n i)
  rw [cos_n_ang n i hi] at this
  have h : sin (n * ang n i) ^ 2 = 1 := by linarith
  rw [← sq_eq_sq₀ (abs_nonneg _) zero_le_one, sq_abs, h, one_pow]

/-- The Chebyshev polynomial in terms of its zeros. -/
theorem T_eq (n : Nat) (hn : 0 < n) : Chebyshev.T ℝ n = C (2 ^ (n - 1)) * Lagrange.nodal (range n) fun i => cos (ang n i) := by
  have hinj : Set.InjOn (fun i => cos (ang n i)) (range n : Set ℕ) := by
    intro i hi j hj h
    have hi := mem_range.1 (mem_coe.1 hi)
    have hj := mem_range.1 (mem_coe.1 hj)
    have := injOn_cos ⟨(ang_mem n i hi).1.le, (ang_mem n i hi).2.le⟩ ⟨(ang_mem n j hj).1.le, (ang_mem n j hj).2.le⟩ h
    have e : (n : ℝ) * ang n i = n * ang n j := by rw [this]
    rw [n_ang n i hi, n_ang n j hj] at e
    have : ((n - 1 - i : Nat) : ℝ) = ((n - 1 - j : Nat) : ℝ) := by
      have := pi_ne_zero
      apply mul_right_cancel₀ this; linarith
    have : n - 1 - i = n - 1 - j := by exact_mod_cast this
    omega
  have hroots : (Chebyshev.T ℝ n).roots = ((range n).image fun i => cos (ang n i)).val := by
    refine roots_eq_of_degree_eq_card (fun u hu => ?_) ?_
    · obtain ⟨k, hk, rfl⟩ := mem_image.1 hu
      rw [Chebyshev.T_real_cos]
      exact cos_n_ang n k (mem_range.1 hk)
    · rw [card_image_of_injOn hinj, card_range, Chebyshev.degree_T, Int.natAbs_natCast]
  have hc : (Chebyshev.T ℝ n).roots.card = (Chebyshev.T ℝ n).natDegree := by
    rw [hroots, card_val, card_image_of_injOn hinj, card_range, Chebyshev.natDegree_T, Int.natAbs_natCast]
  have := C_leadingCoeff_mul_prod_multiset_X_sub_C hc
  rw [← this, Chebyshev.leadingCoeff_T, Int.natAbs_natCast, hroots]
  congr 1
  rw [Lagrange.nodal_eq]
  change (∏ a ∈ (range n).image fun i => cos (ang n i), (X - C a)) = _
  rw [prod_image fun i hi j hj h => hinj hi hj h]

/-- Bound for the node polynomial. -/
theorem node_bound (n : Nat) (hn : 0 < n) (y : ℝ) (hy : y ∈ Set.Icc (0 : ℝ) 1) :
    ∏ i ∈ range n, |y - chebychevRoots n i| ≤ 2 / 4 ^ n := by
  have h1 : (Chebyshev.T ℝ n).eval (2 * y - 1) = 2 ^ (n - 1) * ∏ i ∈ range n, (2 * y - 1 - cos (ang n i)) := by
    rw [T_eq n hn, eval_mul, eval_C, Lagrange.eval_nodal]
  have h2 : |(Chebyshev.T ℝ n).eval (2 * y - 1)| ≤ 1 :=
    Chebyshev.abs_eval_T_real_le_one n (abs_le.2 ⟨by linarith [hy.1], by linarith [hy.2]⟩)
  have h3 : ∏ i ∈ range n, |2 * y - 1 - cos (ang n i)| = 2 ^ n * ∏ i ∈ range n, |y - chebychevRoots n i| := by
    rw [show (2 : ℝ) ^ n = ∏ _i ∈ range n, 2 by simp, ← prod_mul_distrib]
    refine prod_congr rfl fun i _ => ?_
    rw [cheb_eq, show 2 * y - 1 - cos (ang n i) = 2 * (y - (cos (ang n i) + 1) / 2) by ring, abs_mul, abs_two]
  rw [h1, abs_mul, abs_prod, h3, abs_of_pos (by positivity)] at h2
  rw [le_div_iff₀ (by positivity)]
  have e : (4 : ℝ) ^ n = 2 * (2 ^ (n - 1) * 2 ^ n) := by
    obtain ⟨m, rfl⟩ : ∃ m, n = m + 1 := ⟨n - 1, by omega⟩
    rw [Nat.add_sub_cancel, show (4 : ℝ) = 2 * 2 by norm_num, mul_pow, pow_succ]; ring
  rw [e]
  nlinarith

theorem abs_sin_mul (n : Nat) (t : ℝ) : |sin (n * t)| ≤ n * |sin t| := by
  induction n with
  | zero => simp
  | succ n ih =>
    push_cast
    rw [add_mul, one_mul, sin_add]
    refine (abs_add_le _ _).trans ?_
    rw [abs_mul, abs_mul]
    have := abs_cos_le_one t
    have := abs_cos_le_one (n * t)
    nlinarith [abs_nonneg (sin (n * t)), abs_nonneg (sin t)]

theorem sin_aux (θ φ : ℝ) (t1 : 0 ≤ θ) (t2 : θ ≤ π) (a1 : 0 ≤ φ) (a2 : φ ≤ π) : sin φ ≤ 2 * sin ((θ + φ) / 2) := by
  have s1 : 0 ≤ sin (θ / 2) := sin_nonneg_of_nonneg_of_le_pi (by linarith) (by linarith)
  have s2 : 0 ≤ cos (θ / 2) := cos_nonneg_of_mem_Icc ⟨by linarith, by linarith⟩
  have s3 : 0 ≤ sin (φ / 2) := sin_nonneg_of_nonneg_of_le_pi (by linarith) (by linarith)
  have s4 : 0 ≤ cos (φ / 2) := cos_nonneg_of_mem_Icc ⟨by linarith, by linarith⟩
  have p1 := sin_sq_add_cos_sq (θ / 2)
  have p2 := sin_sq_add_cos_sq (φ / 2)
  have e1 : sin φ = 2 * sin (φ / 2) * cos (φ / 2) := by rw [← sin_two_mul]; congr 1; ring
  have e2 : sin ((θ + φ) / 2) = sin (θ / 2) * cos (φ / 2) + cos (θ / 2) * sin (φ / 2) := by rw [add_div, sin_add]
  rw [e1, e2]
  have w1 : sin (φ / 2) ≤ 1 := sin_le_one _
  have w2 : cos (φ / 2) ≤ 1 := cos_le_one _
  have w3 : sin (θ / 2) ^ 2 ≤ sin (θ / 2) := by nlinarith [sin_le_one (θ / 2)]
  have w4 : cos (θ / 2) ^ 2 ≤ cos (θ / 2) := by nlinarith [cos_le_one (θ / 2)]
  have m1 : sin (φ / 2) * cos (φ / 2) ≤ cos (φ / 2) := by nlinarith
  have m2 : sin (φ / 2) * cos (φ / 2) ≤ sin (φ / 2) := by nlinarith
  have m3 : 0 ≤ sin (φ / 2) * cos (φ / 2) := by positivity
  have m4 : 1 ≤ sin (θ / 2) + cos (θ / 2) := by linarith
  have q1 := mul_le_mul_of_nonneg_left m1 s1
  have q2 := mul_le_mul_of_nonneg_left m2 s2
  have q3 := mul_le_mul_of_nonneg_right m4 m3
  linarith

/-- The Lagrange polynomials for the Chebyshev points are bounded by two. -/
theorem lagrange_bound (n i : Nat) (hi : i < n) (y : ℝ) (hy : y ∈ Set.Icc (0 : ℝ) 1) : |lagrange (chebychevRoots n) n i y| ≤ 2 := by
  have hn : 0 < n := by omega
  have hnR : (0 : ℝ) < n := by exact_mod_cast hn
  set u : Nat → ℝ := fun i => cos (ang n i) with hu
  set v := 2 * y - 1 with hv
  have hv1 : -1 ≤ v := by linarith [hy.1]
  have hv2 : v ≤ 1 := by linarith [hy.2]
  have hlag : lagrange (chebychevRoots n) n i y = (Lagrange.nodal ((range n).erase i) u).eval v / (Lagrange.nodal ((range n).erase i) u).eval (u i) := by
    unfold lagrange
    rw [Lagrange.eval_nodal, Lagrange.eval_nodal, ← prod_div_distrib]
    refine prod_congr rfl fun j _ => ?_
    rw [cheb_eq, cheb_eq, show y - (cos (ang n j) + 1) / 2 = (v - u j) / 2 by rw [hv, hu]; ring,
      show (cos (ang n i) + 1) / 2 - (cos (ang n j) + 1) / 2 = (u i - u j) / 2 by rw [hu]; ring, div_div_div_cancel_right₀ two_ne_zero]
  obtain ⟨a1, a2⟩ := ang_mem n i hi
  set φ := ang n i with hφ
  have hs : 0 < sin φ := sin_pos_of_pos_of_lt_pi a1 a2
  have hder : 2 ^ (n - 1) * (Lagrange.nodal ((range n).erase i) u).eval (u i) * sin φ = n * sin (n * φ) := by
    have h1 : (derivative (Chebyshev.T ℝ n)).eval (u i) = 2 ^ (n - 1) * (Lagrange.nodal ((range n).erase i) u).eval (u i) := by
      rw [T_eq n hn, derivative_C_mul, eval_mul, eval_C, Lagrange.eval_nodal_derivative_eval_node_eq (mem_range.2 hi)]
    have hui : u i = cos φ := rfl
    rw [← h1, Chebyshev.T_derivative_eq_U, eval_mul, mul_assoc, hui, Chebyshev.U_real_cos]
    simp
  have hval : 2 ^ (n - 1) * ((v - u i) * (Lagrange.nodal ((range n).erase i) u).eval v) = (Chebyshev.T ℝ n).eval v := by
    rw [T_eq n hn, eval_mul, eval_C, Lagrange.nodal_eq_mul_nodal_erase (mem_range.2 hi), eval_mul, eval_sub, eval_X, eval_C]
  have hd0 : (Lagrange.nodal ((range n).erase i) u).eval (u i) ≠ 0 := by
    intro h0
    rw [h0, mul_zero, zero_mul] at hder
    have := abs_sin_n_ang n i hi
    rw [← hφ] at this
    rcases mul_eq_zero.1 hder.symm with h | h
    · exact hnR.ne' h
    · rw [h, abs_zero] at this; norm_num at this
  set θ := arccos v with hθ
  have hcos : cos θ = v := cos_arccos hv1 hv2
  have t1 : 0 ≤ θ := arccos_nonneg v
  have t2 : θ ≤ π := arccos_le_pi v
  by_cases heq : v = u i
  · rw [hlag, heq, div_self hd0]; norm_num
  -- the identity for the polynomial
  have key : |lagrange (chebychevRoots n) n i y| * (|v - u i| * n) = |cos (n * θ)| * sin φ := by
    have h1 : |n * sin (n * φ)| = n := by rw [abs_mul, abs_sin_n_ang n i hi, mul_one, Nat.abs_cast]
    have h2 : |lagrange (chebychevRoots n) n i y| * |2 ^ (n - 1) * (Lagrange.nodal ((range n).erase i) u).eval (u i) * sin φ| * |v - u i| =
        |(Chebyshev.T ℝ n).eval v| * sin φ := by
      rw [← hval, hlag, ← abs_mul, ← abs_mul, ← abs_of_pos hs, ← abs_mul, abs_of_pos hs]
      congr 1
      field_simp
    rw [hder, h1] at h2
    have h3 : (Chebyshev.T ℝ n).eval v = cos (n * θ) := by rw [← hcos, Chebyshev.T_real_cos]; simp
    rw [← h3, ← h2]; ring
  have c1 : |cos (n * θ)| ≤ 2 * (n * |sin ((θ - φ) / 2)|) := by
    have h0 : cos (n * θ) = cos (n * θ) - cos (n * φ) := by rw [cos_n_ang n i hi, sub_zero]
    rw [h0, cos_sub_cos, abs_mul, abs_mul, abs_neg, abs_two]
    have b1 : |sin ((n * θ + n * φ) / 2)| ≤ 1 := abs_sin_le_one _
    have b2 := abs_sin_mul n ((θ - φ) / 2)
    rw [show (n : ℝ) * ((θ - φ) / 2) = (n * θ - n * φ) / 2 by ring] at b2
    nlinarith [abs_nonneg (sin ((n * θ + n * φ) / 2)), abs_nonneg (sin ((n * θ - n * φ) / 2))]
  have c2 : |v - u i| = 2 * |sin ((θ + φ) / 2)| * |sin ((θ - φ) / 2)| := by
    rw [← hcos, hu]
    simp only [← hφ]
    rw [cos_sub_cos, abs_mul, abs_mul, abs_neg, abs_two]
  have c3 : sin φ ≤ 2 * sin ((θ + φ) / 2) := sin_aux θ φ t1 t2 a1.le a2.le
  have hpos : 0 < |v - u i| := abs_pos.2 (sub_ne_zero.2 heq)
  have hsd : 0 < |sin ((θ - φ) / 2)| := by
    rw [c2] at hpos
    rcases (abs_nonneg (sin ((θ - φ) / 2))).eq_or_lt with h | h
    · rw [← h, mul_zero] at hpos; exact absurd hpos (lt_irrefl _)
    · exact h
  have hsp : 0 < |sin ((θ + φ) / 2)| := by
    rcases (abs_nonneg (sin ((θ + φ) / 2))).eq_or_lt with h | h
    · rw [c2, ← h] at hpos; simp at hpos
    · exact h
  have fin : |lagrange (chebychevRoots n) n i y| * (2 * |sin ((θ + φ) / 2)| * |sin ((θ - φ) / 2)| * n) ≤
      2 * (2 * |sin ((θ + φ) / 2)| * |sin ((θ - φ) / 2)| * n) := by
    rw [← c2, key, c2]
    have : sin φ ≤ 2 * |sin ((θ + φ) / 2)| := c3.trans (by linarith [le_abs_self (sin ((θ + φ) / 2))])
    calc |cos (n * θ)| * sin φ ≤ 2 * (n * |sin ((θ - φ) / 2)|) * (2 * |sin ((θ + φ) / 2)|) :=
          mul_le_mul c1 this hs.le (by positivity)
      _ = _ := by ring
  exact le_of_mul_le_mul_right fin (by positivity)

theorem lebesgue_bound (n : Nat) (y : ℝ) (hy : y ∈ Set.Icc (0 : ℝ) 1) : ∑ i ∈ range n, |lagrange (chebychevRoots n) n i y| ≤ 2 * n := by
  refine (sum_le_sum fun i hi => lagrange_bound n i (mem_range.1 hi) y hy).trans ?_
  rw [sum_const, card_range, nsmul_eq_mul, mul_comm]

end Bembel.Interpol
