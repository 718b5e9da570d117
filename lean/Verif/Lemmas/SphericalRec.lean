import Verif.Spec.Sphericals
import Verif.Lemmas.Legendre
/-! # Recursions of Legendre polynomials and spherical harmonics -/

namespace Bembel
namespace Sph
open Polynomial Spec

/-! ## Rodrigues' formula -/

theorem deriv_two (n : Nat) : derivative ((X ^ 2 - 1 : ℝ[X]) ^ (n + 1)) = C (2 * (n + 1) : ℝ) * ((X ^ 2 - 1) ^ n * X) := by
  rw [derivative_pow_succ, derivative_sub, derivative_X_pow, derivative_one]
  simp only [map_mul, map_add, map_natCast, map_one, map_ofNat]
  push_cast
  ring

theorem iterate_C_mul (k : Nat) (c : ℝ) (p : ℝ[X]) : derivative^[k] (C c * p) = C c * derivative^[k] p :=
  iterate_derivative_C_mul c p k

theorem legendre_eval_one (n : Nat) : (legendre n).eval 1 = 1 := by
  induction n with
  | zero => simp [legendre]
  | succ n ih =>
    have hdvd : (X ^ 2 - 1 : ℝ[X]) ∣ derivative^[n - 1] ((X ^ 2 - 1) ^ n) ∨ n = 0 := by
      rcases Nat.eq_zero_or_pos n with h | h
      · exact Or.inr h
      · left
        have := pow_sub_dvd_iterate_derivative_pow (X ^ 2 - 1 : ℝ[X]) n (n - 1)
        rwa [show n - (n - 1) = 1 by omega, pow_one] at this
    have hz : (n : ℝ) * (derivative^[n - 1] ((X ^ 2 - 1 : ℝ[X]) ^ n)).eval 1 = 0 := by
      rcases hdvd with ⟨r, hr⟩ | h
      · rw [hr]; simp
      · simp [h]
    unfold legendre at ih ⊢
    rw [Function.iterate_succ_apply, deriv_two, iterate_C_mul, iterate_derivative_mul_X]
    simp only [eval_mul, eval_C, eval_add, eval_X, eval_smul, nsmul_eq_mul, eval_natCast] at ih ⊢
    rw [hz, add_zero, mul_one, Nat.factorial_succ]
    have h1 : ((2 : ℝ) ^ n * n.factorial) ≠ 0 := by positivity
    rw [one_div_mul_eq_div, div_eq_one_iff_eq h1] at ih
    rw [ih]
    push_cast
    field_simp
    ring

theorem legendre_deriv (n : Nat) : derivative (legendre (n + 1)) = X * derivative (legendre n) + C (n + 1 : ℝ) * legendre n := by
  unfold legendre
  rw [derivative_C_mul, derivative_C_mul, ← Function.iterate_succ_apply' derivative (n + 1),
    ← Function.iterate_succ_apply' derivative n]
  rw [Function.iterate_succ_apply derivative (n + 1) ((X ^ 2 - 1) ^ (n + 1)), deriv_two, iterate_C_mul, iterate_derivative_mul_X]
  simp only [Nat.add_sub_cancel, Nat.succ_eq_add_one]
  have e : C (1 / (2 ^ (n + 1) * (n + 1).factorial : ℝ)) * C (2 * (n + 1) : ℝ) = C (1 / (2 ^ n * n.factorial : ℝ)) := by
    rw [← C_mul]; congr 1; rw [Nat.factorial_succ]; push_cast; field_simp; ring
  rw [← mul_assoc, e, nsmul_eq_mul]
  have e2 : ((n + 1 : Nat) : ℝ[X]) = C (n + 1 : ℝ) := by push_cast; simp
  rw [e2]
  ring

theorem P_eval_one (n : Nat) : (Legendre.P n).eval 1 = 1 := by
  induction n using Nat.strong_induction_on with
  | _ n ih =>
    match n, ih with
    | 0, _ => simp [Legendre.P]
    | 1, _ => simp [Legendre.P]
    | n + 2, ih =>
      have := congrArg (eval 1) (Legendre.P_rec n)
      simp only [eval_mul, eval_C, eval_sub, eval_X, ih (n + 1) (by omega), ih n (by omega)] at this
      have h : (n + 2 : ℝ) ≠ 0 := by positivity
      have e : (n + 2 : ℝ) * eval 1 (Legendre.P (n + 2)) = (n + 2) * 1 := by rw [this]; ring
      exact mul_left_cancel₀ h e

theorem legendre_eq (n : Nat) : legendre n = Legendre.P n := by
  induction n with
  | zero => simp [legendre, Legendre.P]
  | succ n ih =>
    have hd : derivative (legendre (n + 1) - Legendre.P (n + 1)) = 0 := by
      rw [derivative_sub, legendre_deriv, (Legendre.P_deriv n).1, ih, sub_self]
    have hc := derivative_eq_zero.1 hd
    rw [natDegree_eq_zero] at hc
    obtain ⟨c, hc⟩ := hc
    have := congrArg (eval 1) hc
    rw [eval_C, eval_sub, legendre_eval_one, P_eval_one, sub_self] at this
    rw [this, C_0] at hc
    exact (sub_eq_zero.1 hc.symm)

/-! ## derivatives -/

theorem D_zero {n m : Nat} (h : n < m) (t : ℝ) : legendreDeriv n m t = 0 := by
  unfold legendreDeriv
  rw [legendre_eq, iterate_derivative_eq_zero (lt_of_le_of_lt (Legendre.P_natDegree n) h), eval_zero]

/-- `(n - m) P_n^(m) = (2n-1) t P_{n-1}^(m) - (n+m-1) P_{n-2}^(m)` -/
theorem D_rec (n m : Nat) (t : ℝ) : ((n : ℝ) + 2 - m) * legendreDeriv (n + 2) m t =
    (2 * n + 3) * t * legendreDeriv (n + 1) m t - ((n : ℝ) + 1 + m) * legendreDeriv n m t := by
  have e1 : ∀ k : Nat, C ((k : ℝ) + 2) * derivative^[m] (Legendre.P (k + 2)) = C (2 * k + 3 : ℝ) * (derivative^[m] (Legendre.P (k + 1)) * X +
      C (m : ℝ) * derivative^[m - 1] (Legendre.P (k + 1))) - C (k + 1 : ℝ) * derivative^[m] (Legendre.P k) := by
    intro k
    have := congrArg (derivative^[m]) (Legendre.P_rec k)
    rw [iterate_C_mul, iterate_derivative_sub, iterate_C_mul, mul_assoc, iterate_C_mul, mul_comm X, iterate_derivative_mul_X,
      nsmul_eq_mul] at this
    rw [this]
    simp
  have e2 : C (2 * n + 3 : ℝ) * (C (m : ℝ) * derivative^[m - 1] (Legendre.P (n + 1))) =
      C (m : ℝ) * (derivative^[m] (Legendre.P (n + 2)) - derivative^[m] (Legendre.P n)) := by
    rcases Nat.eq_zero_or_pos m with h | h
    · simp [h]
    · have a := (Legendre.P_deriv (n + 1)).1
      have b := (Legendre.P_deriv n).2
      have c : derivative (Legendre.P (n + 2)) - derivative (Legendre.P n) = C (2 * n + 3 : ℝ) * Legendre.P (n + 1) := by
        rw [a, b]
        have : C (2 * n + 3 : ℝ) = C ((n : ℝ) + 1) + C ((n + 1 : Nat) + 1 : ℝ) := by rw [← C_add]; congr 1; push_cast; ring
        rw [this]
        ring
      have d := congrArg (derivative^[m - 1]) c
      rw [iterate_derivative_sub, iterate_C_mul, ← Function.iterate_succ_apply, ← Function.iterate_succ_apply,
        show (m - 1).succ = m by omega] at d
      rw [d]; ring
  have e := e1 n
  rw [mul_add, e2] at e
  have := congrArg (eval t) e
  simp only [eval_mul, eval_C, eval_sub, eval_X, eval_add] at this
  unfold legendreDeriv
  rw [legendre_eq, legendre_eq, legendre_eq]
  linear_combination this

theorem D_diag (n : Nat) (t : ℝ) : legendreDeriv (n + 1) (n + 1) t = (2 * n + 1) * legendreDeriv n n t := by
  have a := congrArg (derivative^[n]) (Legendre.P_deriv n).1
  rw [← Function.iterate_succ_apply, iterate_map_add, mul_comm X, iterate_derivative_mul_X, iterate_C_mul,
    ← Function.iterate_succ_apply, nsmul_eq_mul] at a
  have b := congrArg (eval t) a
  simp only [eval_mul, eval_C, eval_X, eval_add, eval_natCast] at b
  have z := D_zero (Nat.lt_succ_self n) t
  unfold legendreDeriv at z ⊢
  rw [legendre_eq] at z ⊢
  rw [legendre_eq]
  rw [b, z]
  rcases Nat.eq_zero_or_pos n with h | h
  · subst h; simp
  · rw [← Function.iterate_succ_apply, show (n - 1).succ = n by omega]; ring

theorem D_sub (n : Nat) (t : ℝ) : legendreDeriv (n + 1) n t = (2 * n + 1) * t * legendreDeriv n n t := by
  rcases Nat.eq_zero_or_pos n with h | h
  · subst h
    unfold legendreDeriv
    rw [legendre_eq, legendre_eq]
    simp [Legendre.P]
  · obtain ⟨k, rfl⟩ : ∃ k, n = k + 1 := ⟨n - 1, by omega⟩
    have := D_rec k (k + 1) t
    rw [D_zero (show k < k + 1 by omega) t] at this
    push_cast at this ⊢
    linear_combination this

theorem D_zero_zero (t : ℝ) : legendreDeriv 0 0 t = 1 := by
  unfold legendreDeriv; rw [legendre_eq]; simp [Legendre.P]

/-! ## normed functions -/

/-- The normed Legendre functions. -/
noncomputable def q (n m : Nat) (t : ℝ) : ℝ := sphericalNorm n m * legendreDeriv n m t

theorem norm_pos (n m : Nat) : 0 < (2 * n + 1 : ℝ) / (4 * Real.pi) * ((n - m).factorial / (n + m).factorial) := by
  have := Real.pi_pos
  positivity

theorem q_zero (t : ℝ) : q 0 0 t = 0.5 / Real.sqrt Real.pi := by
  unfold q sphericalNorm
  rw [D_zero_zero]
  have := Real.pi_pos
  simp only [Nat.cast_zero, mul_zero, zero_add, Nat.sub_zero, Nat.factorial_zero, Nat.cast_one, mul_one, div_one]
  rw [Real.sqrt_div (by norm_num), Real.sqrt_one, Real.sqrt_mul (by norm_num), show (4 : ℝ) = 2 ^ 2 by norm_num, Real.sqrt_sq (by norm_num)]
  field_simp
  norm_num

/-- Comparing square roots. -/
theorem sqrt_ratio (a b c : ℝ) (hb : 0 ≤ b) (hc : 0 ≤ c) (h : a = c ^ 2 * b) : Real.sqrt a = c * Real.sqrt b := by
  rw [h, Real.sqrt_mul (by positivity), Real.sqrt_sq hc]

theorem norm_diag (m : Nat) : sphericalNorm (m + 1) (m + 1) * (2 * m + 1) = Real.sqrt ((2 * m + 3) / (2 * m + 2)) * sphericalNorm m m := by
  unfold sphericalNorm
  rw [mul_comm, ← sqrt_ratio _ _ (2 * m + 1 : ℝ) (norm_pos _ _).le (by positivity) rfl, ← Real.sqrt_mul (by positivity)]
  congr 1
  have := Real.pi_pos
  rw [Nat.sub_self, Nat.sub_self, show m + 1 + (m + 1) = (m + m) + 1 + 1 by ring, Nat.factorial_succ, Nat.factorial_succ]
  push_cast
  field_simp
  ring

theorem norm_sub (m : Nat) : sphericalNorm (m + 1) m * (2 * m + 1) = Real.sqrt (2 * m + 3) * sphericalNorm m m := by
  unfold sphericalNorm
  rw [mul_comm, ← sqrt_ratio _ _ (2 * m + 1 : ℝ) (norm_pos _ _).le (by positivity) rfl, ← Real.sqrt_mul (by positivity)]
  congr 1
  have := Real.pi_pos
  rw [Nat.sub_self, show m + 1 - m = 1 by omega, show m + 1 + m = (m + m) + 1 by ring, Nat.factorial_succ (m + m), Nat.factorial_one]
  push_cast
  field_simp
  ring

theorem q_diag (m : Nat) (t : ℝ) : q (m + 1) (m + 1) t = Real.sqrt ((2 * m + 3) / (2 * m + 2)) * q m m t := by
  unfold q; rw [D_diag]; linear_combination legendreDeriv m m t * norm_diag m

theorem q_sub (m : Nat) (t : ℝ) : q (m + 1) m t = Real.sqrt (2 * m + 3) * t * q m m t := by
  unfold q; rw [D_sub]; linear_combination t * legendreDeriv m m t * norm_sub m

theorem q_rec (n m : Nat) (h : m ≤ n) (t : ℝ) : q (n + 2) m t =
    Real.sqrt ((2 * (n + 2 : Nat) + 1) / ((((n + 2 - m : Nat) : ℝ)) * ((n + 2 + m : Nat) : ℝ))) * (Real.sqrt (2 * (n + 2 : Nat) - 1) * t * q (n + 1) m t -
      Real.sqrt ((((n + 2 + m : Nat) : ℝ) - 1) * ((n + 2 - m : Nat) - 1) / (2 * (n + 2 : Nat) - 3)) * q n m t) := by
  obtain ⟨k, rfl⟩ : ∃ k, n = m + k := ⟨n - m, by omega⟩
  have hpi := Real.pi_pos
  have hm : (0 : ℝ) ≤ m := Nat.cast_nonneg m
  have hk : (0 : ℝ) ≤ k := Nat.cast_nonneg k
  rw [show m + k + 2 - m = k + 2 by omega, show m + k + 2 + m = 2 * m + k + 2 by ring]
  push_cast
  have a1 : sphericalNorm (m + k + 2) m * ((2 * m + 2 * k + 3) / (k + 2)) =
      Real.sqrt ((2 * (m + k + 2) + 1) / ((k + 2) * (2 * m + k + 2))) * (Real.sqrt (2 * (m + k + 2) - 1) * sphericalNorm (m + k + 1) m) := by
    unfold sphericalNorm
    have p1 : (0 : ℝ) ≤ (2 * (m + k + 2) + 1) / ((k + 2) * (2 * m + k + 2)) := by positivity
    have p2 : (0 : ℝ) ≤ 2 * ((m : ℝ) + k + 2) - 1 := by linarith
    rw [mul_comm, ← sqrt_ratio _ _ ((2 * m + 2 * k + 3) / (k + 2) : ℝ) (norm_pos _ _).le (by positivity) rfl, ← Real.sqrt_mul p2,
      ← Real.sqrt_mul p1]
    congr 1
    rw [show m + k + 2 - m = k + 1 + 1 by omega, show m + k + 1 - m = k + 1 by omega, show m + k + 2 + m = (2 * m + k + 1) + 1 by ring,
      show m + k + 1 + m = 2 * m + k + 1 by ring, Nat.factorial_succ (k + 1), Nat.factorial_succ (2 * m + k + 1)]
    push_cast
    field_simp
    ring
  have a2 : sphericalNorm (m + k + 2) m * ((2 * m + k + 1) / (k + 2)) =
      Real.sqrt ((2 * (m + k + 2) + 1) / ((k + 2) * (2 * m + k + 2))) *
        (Real.sqrt ((2 * m + k + 2 - 1) * (k + 2 - 1) / (2 * (m + k + 2) - 3)) * sphericalNorm (m + k) m) := by
    unfold sphericalNorm
    have p1 : (0 : ℝ) ≤ (2 * (m + k + 2) + 1) / ((k + 2) * (2 * m + k + 2)) := by positivity
    have e3 : (2 * m + k + 2 - 1 : ℝ) * (k + 2 - 1) / (2 * (m + k + 2) - 3) = (2 * m + k + 1) * (k + 1) / (2 * m + 2 * k + 1) := by
      congr 1 <;> ring
    have p2 : (0 : ℝ) ≤ (2 * m + k + 1 : ℝ) * (k + 1) / (2 * m + 2 * k + 1) := by positivity
    rw [e3, mul_comm, ← sqrt_ratio _ _ ((2 * m + k + 1) / (k + 2) : ℝ) (norm_pos _ _).le (by positivity) rfl, ← Real.sqrt_mul p2,
      ← Real.sqrt_mul p1]
    congr 1
    rw [show m + k + 2 - m = k + 1 + 1 by omega, show m + k - m = k by omega, show m + k + 2 + m = (2 * m + k) + 1 + 1 by ring,
      show m + k + m = 2 * m + k by ring, Nat.factorial_succ (k + 1), Nat.factorial_succ k, Nat.factorial_succ (2 * m + k + 1),
      Nat.factorial_succ (2 * m + k)]
    push_cast
    field_simp
    ring
  have d := D_rec (m + k) m t
  push_cast at d
  have d' : legendreDeriv (m + k + 2) m t = (2 * m + 2 * k + 3) / (k + 2) * t * legendreDeriv (m + k + 1) m t -
      (2 * m + k + 1) / (k + 2) * legendreDeriv (m + k) m t := by
    have h2 : (k + 2 : ℝ) ≠ 0 := by positivity
    field_simp
    linear_combination d
  unfold q
  rw [d']
  linear_combination t * legendreDeriv (m + k + 1) m t * a1 - legendreDeriv (m + k) m t * a2

/-- The norming factors of neighbouring orders. -/
theorem norm_order (n m : Nat) (h1 : 1 ≤ m) (h : m ≤ n) : sphericalNorm n (m - 1) =
    Real.sqrt (((n + m : Nat) : ℝ) * ((n - m + 1 : Nat) : ℝ)) * sphericalNorm n m := by
  obtain ⟨k, rfl⟩ : ∃ k, n = m + k := ⟨n - m, by omega⟩
  obtain ⟨l, rfl⟩ : ∃ l, m = l + 1 := ⟨m - 1, by omega⟩
  have hpi := Real.pi_pos
  unfold sphericalNorm
  rw [← Real.sqrt_mul (by positivity)]
  congr 1
  rw [show l + 1 + k - (l + 1 - 1) = k + 1 by omega, show l + 1 + k - (l + 1) = k by omega, show l + 1 + k + (l + 1) = (2 * l + k + 1) + 1 by ring,
    show l + 1 + k + (l + 1 - 1) = 2 * l + k + 1 by omega, Nat.factorial_succ k, Nat.factorial_succ (2 * l + k + 1)]
  push_cast
  field_simp

/-! ## powers of the horizontal coordinates -/

/-- real and imaginary part of `(a + i b)^k` -/
noncomputable def cr (a b : ℝ) (k : Nat) : ℝ := (((a : ℂ) + b * Complex.I) ^ k).re

noncomputable def ci (a b : ℝ) (k : Nat) : ℝ := (((a : ℂ) + b * Complex.I) ^ k).im

theorem cr_zero (a b : ℝ) : cr a b 0 = 1 := by simp [cr]

theorem ci_zero (a b : ℝ) : ci a b 0 = 0 := by simp [ci]

theorem cr_succ (a b : ℝ) (k : Nat) : cr a b (k + 1) = a * cr a b k - b * ci a b k := by
  unfold cr ci; rw [pow_succ']; simp

theorem ci_succ (a b : ℝ) (k : Nat) : ci a b (k + 1) = a * ci a b k + b * cr a b k := by
  unfold cr ci; rw [pow_succ']; simp

theorem harmonicPos_re (n m : Nat) (x : V3) : (harmonicPos n m x).re = q n m (x 2) * cr (x 0) (x 1) m := by
  unfold harmonicPos q cr; rw [Complex.re_ofReal_mul]

theorem harmonicPos_im (n m : Nat) (x : V3) : (harmonicPos n m x).im = q n m (x 2) * ci (x 0) (x 1) m := by
  unfold harmonicPos q ci; rw [Complex.im_ofReal_mul]

end Sph
end Bembel
