import Verif.Spec.Bernstein
import Mathlib.LinearAlgebra.Lagrange
import Mathlib.Algebra.Order.Field.Basic
import Mathlib.Tactic.FieldSimp
import Mathlib.Tactic.Linarith
/-!
# Unisolvence of Bernstein polynomials
-/

open Finset

namespace Bembel.Spl
open Spec

variable {K : Type} [Field K] [LinearOrder K] [IsStrictOrderedRing K]

/-- A combination of the Bernstein polynomials of degree `p` that vanishes at `p + 1` different points of `(0, 1)` is trivial. -/
theorem bern_unisolvent (p : Nat) (c : Nat → K) (x : Nat → K) (hx : ∀ k ≤ p, 0 < x k ∧ x k < 1)
    (hd : ∀ k ≤ p, ∀ l ≤ p, x k = x l → k = l) (h0 : ∀ k ≤ p, ∑ j ∈ range (p + 1), bern p j (x k) * c j = 0) :
    ∀ j ≤ p, c j = 0 := by
  let s : Nat → K := fun k => x k / (1 - x k)
  let q : Polynomial K := ∑ j ∈ range (p + 1), Polynomial.C ((p.choose j : K) * c j) * Polynomial.X ^ j
  have hs : Set.InjOn s (range (p + 1)) := by
    intro k hk l hl h
    have hk := mem_range.1 hk
    have hl := mem_range.1 hl
    obtain ⟨k1, k2⟩ := hx k (by omega)
    obtain ⟨l1, l2⟩ := hx l (by omega)
    refine hd k (by omega) l (by omega) ?_
    have e1 : (1 - x k) ≠ 0 := (sub_pos.2 k2).ne'
    have e2 : (1 - x l) ≠ 0 := (sub_pos.2 l2).ne'
    simp only [s] at h
    rw [div_eq_div_iff e1 e2] at h
    linarith
  have hdeg : q.degree < (range (p + 1)).card := by
    rw [card_range]
    refine lt_of_le_of_lt (Polynomial.degree_sum_le _ _) ?_
    rw [Finset.sup_lt_iff (by exact WithBot.bot_lt_coe _)]
    intro j hj
    refine lt_of_le_of_lt (Polynomial.degree_C_mul_X_pow_le _ _) ?_
    exact_mod_cast mem_range.1 hj
  have heval : ∀ k ∈ range (p + 1), q.eval (s k) = 0 := by
    intro k hk
    have hk := mem_range.1 hk
    obtain ⟨k1, k2⟩ := hx k (by omega)
    have e1 : (1 - x k) ≠ 0 := (sub_pos.2 k2).ne'
    have hz := h0 k (by omega)
    have : q.eval (s k) * (1 - x k) ^ p = ∑ j ∈ range (p + 1), bern p j (x k) * c j := by
      simp only [q, Polynomial.eval_finset_sum, Polynomial.eval_mul, Polynomial.eval_C, Polynomial.eval_pow, Polynomial.eval_X, sum_mul]
      refine sum_congr rfl fun j hj => ?_
      have hj := mem_range.1 hj
      have : (1 - x k) ^ p = (1 - x k) ^ j * (1 - x k) ^ (p - j) := by rw [← pow_add]; congr 1; omega
      rw [this]
      simp only [s, bern, div_pow]
      field_simp
    rw [hz] at this
    exact (mul_eq_zero.1 this).resolve_right (pow_ne_zero _ e1)
  have hq : q = 0 := Polynomial.eq_zero_of_degree_lt_of_eval_index_eq_zero _ hs hdeg heval
  intro j hj
  have hc : q.coeff j = (p.choose j : K) * c j := by
    simp only [q, Polynomial.finset_sum_coeff, Polynomial.coeff_C_mul_X_pow]
    rw [sum_eq_single j]
    · simp
    · intro b _ hb; rw [if_neg (Ne.symm hb)]
    · intro h; exact absurd (mem_range.2 (by omega)) h
  rw [hq] at hc
  have : (p.choose j : K) ≠ 0 := by exact_mod_cast (Nat.choose_pos hj).ne'
  rcases mul_eq_zero.1 hc.symm with h | h
  · exact absurd h this
  · exact h

end Bembel.Spl
