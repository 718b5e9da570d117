import Mathlib.Algebra.Polynomial.Derivative
import Mathlib.Algebra.Polynomial.Eval.Degree
import Mathlib.Analysis.Calculus.Deriv.Polynomial
import Mathlib.Topology.Algebra.Polynomial
import Mathlib.MeasureTheory.Integral.IntervalIntegral.FundThmCalculus
import Mathlib.Tactic.LinearCombination
import Mathlib.Tactic.FieldSimp
import Mathlib.Tactic.Positivity
/-! # Legendre polynomials: three term recursion, orthogonality -/

namespace Bembel
namespace Legendre
open Polynomial

/-- Legendre polynomials on `[-1,1]` by the three term recursion. -/
noncomputable def P : Nat → ℝ[X]
  | 0 => 1
  | 1 => X
  | n + 2 => C (1 / (n + 2 : ℝ)) * (C (2 * n + 3 : ℝ) * X * P (n + 1) - C (n + 1 : ℝ) * P n)

theorem P_rec (n : Nat) : C (n + 2 : ℝ) * P (n + 2) = C (2 * n + 3 : ℝ) * X * P (n + 1) - C (n + 1 : ℝ) * P n := by
  rw [P, ← mul_assoc, ← C_mul, mul_one_div_cancel (by positivity), C_1, one_mul]

theorem P_natDegree (n : Nat) : (P n).natDegree ≤ n := by
  induction n using Nat.strong_induction_on with
  | _ n ih =>
    match n, ih with
    | 0, _ => simp [P]
    | 1, _ => simp [P]
    | n + 2, ih =>
      have h1 := ih (n + 1) (by omega)
      have h0 := ih n (by omega)
      rw [P]
      refine natDegree_C_mul_le _ _ |>.trans ?_
      refine (natDegree_sub_le _ _).trans (max_le ?_ ?_)
      · rw [mul_assoc]
        refine (natDegree_C_mul_le _ _).trans ((natDegree_mul_le).trans ?_)
        rw [natDegree_X]; omega
      · exact (natDegree_C_mul_le _ _).trans (by omega)

/-- `P'_{n+1} = x P'_n + (n+1) P_n` and `x P'_{n+1} = P'_n + (n+1) P_{n+1}`. -/
theorem P_deriv (n : Nat) : derivative (P (n + 1)) = X * derivative (P n) + C (n + 1 : ℝ) * P n ∧
    X * derivative (P (n + 1)) = derivative (P n) + C (n + 1 : ℝ) * P (n + 1) := by
  induction n with
  | zero => simp [P]
  | succ n ih =>
    obtain ⟨h1, h2⟩ := ih
    have hr := P_rec n
    have hd : C (n + 2 : ℝ) * derivative (P (n + 2)) = C (2 * n + 3 : ℝ) * (P (n + 1) + X * derivative (P (n + 1))) -
        C (n + 1 : ℝ) * derivative (P n) := by
      have := congrArg derivative hr
      simp only [derivative_C_mul, derivative_sub, derivative_mul, derivative_X, derivative_C] at this
      linear_combination this
    have hn : (C (n + 2 : ℝ)) ≠ 0 := by
      rw [Ne, C_eq_zero]; positivity
    have two : (C 2 : ℝ[X]) = 2 := map_ofNat C 2
    have three : (C 3 : ℝ[X]) = 3 := map_ofNat C 3
    have c2 : (C (n + 2 : ℝ)) = C (n : ℝ) + 2 := by rw [C_add, two]
    have c1 : (C (n + 1 : ℝ)) = C (n : ℝ) + 1 := by rw [C_add, C_1]
    have c3 : (C (2 * n + 3 : ℝ)) = 2 * C (n : ℝ) + 3 := by rw [C_add, C_mul, two, three]
    have c4 : (C (((n + 1 : ℕ) : ℝ) + 1)) = C (n : ℝ) + 2 := by
      rw [Nat.cast_add, Nat.cast_one, add_assoc, C_add]; norm_num [two]
    rw [c2] at hn hd hr
    rw [c1] at hd h1 h2 hr
    rw [c3] at hd hr
    rw [c4]
    have A : derivative (P (n + 2)) = X * derivative (P (n + 1)) + (C (n : ℝ) + 2) * P (n + 1) := by
      refine mul_left_cancel₀ hn ?_
      linear_combination hd + (C (n : ℝ) + 1) * h2
    refine ⟨A, ?_⟩
    linear_combination X * A + X * h2 - h1 - hr

/-- Legendre's differential equation: `((1 - x²) P_n')' = - n (n+1) P_n`. -/
theorem P_ode (n : Nat) : derivative ((1 - X ^ 2) * derivative (P n)) = -C (n * (n + 1) : ℝ) * P n := by
  cases n with
  | zero => simp [P]
  | succ n =>
    obtain ⟨h1, h2⟩ := P_deriv n
    -- (1 - x²) P'_{n+1} = (n+1) (P_n - x P_{n+1})
    have h : (1 - X ^ 2) * derivative (P (n + 1)) = C (n + 1 : ℝ) * (P n - X * P (n + 1)) := by
      linear_combination h1 - X * h2
    rw [h, derivative_C_mul, derivative_sub, derivative_mul, derivative_X]
    have c : (C (((n + 1 : ℕ) : ℝ) * (((n + 1 : ℕ) : ℝ) + 1))) = C (n + 1 : ℝ) * (C (n + 1 : ℝ) + 1) := by
      push_cast; rw [C_mul, show C ((n : ℝ) + 1 + 1) = C (n + 1 : ℝ) + 1 by rw [C_add (a := (n : ℝ) + 1), C_1]]
    rw [c]
    linear_combination -C (n + 1 : ℝ) * h2

/-- Mean value over `[-1,1]`. -/
noncomputable def L (p : ℝ[X]) : ℝ := (1 / 2) * ∫ x in (-1:ℝ)..1, p.eval x

theorem intble (p : ℝ[X]) (a b : ℝ) : IntervalIntegrable (fun x => p.eval x) MeasureTheory.volume a b :=
  p.continuous.intervalIntegrable _ _

theorem L_add (p q : ℝ[X]) : L (p + q) = L p + L q := by
  simp only [L, eval_add]
  rw [intervalIntegral.integral_add (intble _ _ _) (intble _ _ _)]; ring

theorem L_C_mul (c : ℝ) (p : ℝ[X]) : L (C c * p) = c * L p := by
  simp only [L, eval_mul, eval_C]
  rw [intervalIntegral.integral_const_mul]; ring

theorem L_sub (p q : ℝ[X]) : L (p - q) = L p - L q := by
  have : p - q = p + C (-1) * q := by simp [sub_eq_add_neg]
  rw [this, L_add, L_C_mul]; ring

theorem L_derivative (p : ℝ[X]) : L (derivative p) = (p.eval 1 - p.eval (-1)) / 2 := by
  have h := intervalIntegral.integral_eq_sub_of_hasDerivAt (a := -1) (b := 1) (f := fun x => p.eval x)
    (f' := fun x => (derivative p).eval x) (fun x _ => p.hasDerivAt x) (intble _ _ _)
  rw [L, h]; ring

/-- Orthogonality. -/
theorem L_orth {m n : Nat} (h : m ≠ n) : L (P m * P n) = 0 := by
  have key : L (derivative ((1 - X ^ 2) * (P m * derivative (P n) - P n * derivative (P m)))) = 0 := by
    rw [L_derivative]; simp
  have e : derivative ((1 - X ^ 2) * (P m * derivative (P n) - P n * derivative (P m))) =
      C ((m * (m + 1) : ℝ) - n * (n + 1)) * (P m * P n) := by
    have hm := P_ode m
    have hn := P_ode n
    simp only [derivative_mul, derivative_sub] at hm hn ⊢
    rw [C_sub]
    linear_combination P m * hn - P n * hm
  rw [e, L_C_mul] at key
  refine (mul_eq_zero.1 key).resolve_left ?_
  have : ((m * (m + 1) : ℝ) - n * (n + 1)) = (m - n) * (m + n + 1) := by ring
  rw [this]
  refine mul_ne_zero (sub_ne_zero.2 (by exact_mod_cast h)) (by positivity)

theorem L_sq_step (n : Nat) : (2 * (n + 1 : ℝ) + 1) * L (P (n + 1) * P (n + 1)) = (2 * (n : ℝ) + 1) * L (P n * P n) := by
  -- `n = 0` separately
  have a : (n + 1 : ℝ) * L (P (n + 1) * P (n + 1)) = (2 * n + 1) * L (X * P n * P (n + 1)) := by
    rw [← L_C_mul, ← L_C_mul]
    cases n with
    | zero => simp [P]
    | succ n =>
      have hr := P_rec n
      have e1 : C (((n + 1 : ℕ) : ℝ) + 1) = C (n + 2 : ℝ) := by congr 1; push_cast; ring
      have e2 : C (2 * ((n + 1 : ℕ) : ℝ) + 1) = C (2 * n + 3 : ℝ) := by congr 1; push_cast; ring
      rw [e1, e2]
      have : C (n + 2 : ℝ) * (P (n + 1 + 1) * P (n + 1 + 1)) =
          C (2 * n + 3 : ℝ) * (X * P (n + 1) * P (n + 1 + 1)) - C (n + 1 : ℝ) * (P n * P (n + 1 + 1)) := by
        linear_combination P (n + 2) * hr
      rw [this, L_sub, L_C_mul (n + 1 : ℝ), L_orth (by omega)]; ring
  have b : (n + 1 : ℝ) * L (P n * P n) = (2 * n + 3) * L (X * P n * P (n + 1)) := by
    rw [← L_C_mul, ← L_C_mul]
    have hr := P_rec n
    have : C (2 * n + 3 : ℝ) * (X * P n * P (n + 1)) = C (n + 2 : ℝ) * (P n * P (n + 2)) + C (n + 1 : ℝ) * (P n * P n) := by
      linear_combination -P n * hr
    rw [this, L_add, L_C_mul (n + 2 : ℝ), L_orth (by omega)]; ring
  have hn : (n + 1 : ℝ) ≠ 0 := by positivity
  refine mul_left_cancel₀ hn ?_
  linear_combination (2 * n + 3 : ℝ) * a - (2 * n + 1 : ℝ) * b

theorem L_sq (n : Nat) : L (P n * P n) = 1 / (2 * n + 1) := by
  induction n with
  | zero => simp [P, L]; norm_num
  | succ n ih =>
    have h := L_sq_step n
    rw [ih] at h
    have h1 : (2 * (n : ℝ) + 1) ≠ 0 := by positivity
    have h2 : (2 * ((n + 1 : ℕ) : ℝ) + 1) ≠ 0 := by positivity
    rw [mul_one_div_cancel h1] at h
    push_cast at h2 ⊢
    field_simp
    linarith

end Legendre
end Bembel
