import Mathlib.LinearAlgebra.Matrix.NonsingularInverse
import Mathlib.LinearAlgebra.Span.Basic
import Verif.Lemmas.Legendre
import Verif.Spec.Quadrature
/-! # Gauss rules from the eigenvalues of the Jacobi matrix -/

namespace Bembel
namespace Legendre
open Polynomial Finset

/-- Orthonormal Legendre polynomials. -/
noncomputable def q (n : Nat) : ℝ[X] := C (Real.sqrt (2 * n + 1)) * P n

/-- Recursion coefficients. -/
noncomputable def β (n : Nat) : ℝ := (n : ℝ) / Real.sqrt (4 * n * n - 1)

theorem q_orth (m n : Nat) : L (q m * q n) = if m = n then 1 else 0 := by
  have e : q m * q n = C (Real.sqrt (2 * m + 1) * Real.sqrt (2 * n + 1)) * (P m * P n) := by
    rw [q, q, C_mul]; ring
  rw [e, L_C_mul]
  by_cases h : m = n
  · subst h
    rw [if_pos rfl, L_sq, Real.mul_self_sqrt (by positivity), mul_one_div_cancel (by positivity)]
  · rw [if_neg h, L_orth h, mul_zero]

theorem sqrt_split (n : Nat) : Real.sqrt (4 * ((n + 1 : ℕ) : ℝ) * ((n + 1 : ℕ) : ℝ) - 1) =
    Real.sqrt (2 * n + 1) * Real.sqrt (2 * ((n + 1 : ℕ) : ℝ) + 1) := by
  rw [← Real.sqrt_mul (by positivity)]
  congr 1
  push_cast; ring

theorem X_mul_q_zero : X * q 0 = C (β 1) * q 1 := by
  have h := sqrt_split 0
  simp only [q, β, P]
  rw [h, mul_one, ← mul_assoc, ← C_mul, mul_comm X]
  congr 2
  have h1 : Real.sqrt (2 * ((0 + 1 : ℕ) : ℝ) + 1) ≠ 0 := (Real.sqrt_pos.2 (by positivity)).ne'
  simp at h1 ⊢
  field_simp

theorem X_mul_q (n : Nat) : X * q (n + 1) = C (β (n + 2)) * q (n + 2) + C (β (n + 1)) * q n := by
  have h1 := sqrt_split n
  have h2 := sqrt_split (n + 1)
  have hr := P_rec n
  have p0 : Real.sqrt (2 * (n : ℝ) + 1) ≠ 0 := (Real.sqrt_pos.2 (by positivity)).ne'
  have p1 : Real.sqrt (2 * ((n + 1 : ℕ) : ℝ) + 1) ≠ 0 := (Real.sqrt_pos.2 (by positivity)).ne'
  have p2 : Real.sqrt (2 * ((n + 1 + 1 : ℕ) : ℝ) + 1) ≠ 0 := (Real.sqrt_pos.2 (by positivity)).ne'
  have s1 : Real.sqrt (2 * ((n + 1 : ℕ) : ℝ) + 1) * Real.sqrt (2 * ((n + 1 : ℕ) : ℝ) + 1) = 2 * n + 3 := by
    rw [Real.mul_self_sqrt (by positivity)]; push_cast; ring
  simp only [q, β]
  rw [show n + 2 = n + 1 + 1 from rfl, h1, h2]
  have a2 : ((n + 1 + 1 : ℕ) : ℝ) / (Real.sqrt (2 * ((n + 1 : ℕ) : ℝ) + 1) * Real.sqrt (2 * ((n + 1 + 1 : ℕ) : ℝ) + 1)) *
      Real.sqrt (2 * ((n + 1 + 1 : ℕ) : ℝ) + 1) = 1 / Real.sqrt (2 * ((n + 1 : ℕ) : ℝ) + 1) * (n + 2) := by
    field_simp; push_cast; ring
  have a1 : ((n + 1 : ℕ) : ℝ) / (Real.sqrt (2 * (n : ℝ) + 1) * Real.sqrt (2 * ((n + 1 : ℕ) : ℝ) + 1)) *
      Real.sqrt (2 * (n : ℝ) + 1) = 1 / Real.sqrt (2 * ((n + 1 : ℕ) : ℝ) + 1) * (n + 1) := by
    field_simp; push_cast; ring
  have a0 : Real.sqrt (2 * ((n + 1 : ℕ) : ℝ) + 1) = 1 / Real.sqrt (2 * ((n + 1 : ℕ) : ℝ) + 1) * (2 * n + 3) := by
    rw [← s1]; field_simp
  generalize Real.sqrt (2 * ((n + 1 : ℕ) : ℝ) + 1) = r1 at *
  generalize Real.sqrt (2 * ((n + 1 + 1 : ℕ) : ℝ) + 1) = r2 at *
  generalize Real.sqrt (2 * (n : ℝ) + 1) = r0 at *
  rw [← mul_assoc (C _) (C r2), ← C_mul, a2, ← mul_assoc (C _) (C r0), ← C_mul, a1]
  have a0' : (C r1 : ℝ[X]) = C (1 / r1) * C (2 * n + 3 : ℝ) := by rw [← C_mul, ← a0]
  rw [a0', C_mul, C_mul]
  linear_combination -C (1 / r1) * hr

/-- Column `i` of the Jacobi matrix: `X q_i = Σ_l J i l q_l`. -/
noncomputable def J (i l : Nat) : ℝ := if l = i + 1 then β (i + 1) else if i = l + 1 then β i else 0

theorem J_symm (i l : Nat) : J i l = J l i := by
  unfold J
  split_ifs <;> first | rfl | omega | (subst_vars; rfl)

theorem q_natDegree (n : Nat) : (q n).natDegree ≤ n := (natDegree_C_mul_le _ _).trans (P_natDegree n)

theorem X_mul_q_sum (n i : Nat) (hi : i + 1 < n) : X * q i = ∑ l ∈ range n, C (J i l) * q l := by
  cases i with
  | zero =>
    rw [X_mul_q_zero, sum_eq_single 1]
    · simp [J]
    · intro b _ hb; simp [J, hb]
    · intro h; exact absurd (mem_range.2 (by omega)) h
  | succ i =>
    rw [X_mul_q, ← sum_subset (s₁ := {i, i + 2})]
    · rw [sum_pair (by omega)]; simp only [J]; rw [if_neg (by omega), if_pos trivial, if_pos trivial]; ring
    · intro x hx; simp at hx; exact mem_range.2 (by omega)
    · intro x _ hx; simp at hx; rw [J, if_neg (by omega), if_neg (by omega), C_0, zero_mul]

theorem L_zero : L 0 = 0 := by simp [L]

theorem L_sum {ι : Type*} (s : Finset ι) (f : ι → ℝ[X]) : L (∑ i ∈ s, f i) = ∑ i ∈ s, L (f i) := by
  classical
  induction s using Finset.induction_on with
  | empty => simp [L_zero]
  | insert a s ha ih => rw [sum_insert ha, sum_insert ha, L_add, ih]

/-- Monomials in terms of the orthonormal polynomials. -/
theorem pow_expand (a n : Nat) (ha : a < n) : ∃ c : Nat → ℝ, X ^ a = ∑ i ∈ range n, C (c i) * q i ∧ ∀ i, a < i → c i = 0 := by
  induction a with
  | zero =>
    refine ⟨fun i => if i = 0 then 1 else 0, ?_, fun i hi => by simp; omega⟩
    rw [sum_eq_single 0]
    · simp [q, P]
    · intro b _ hb; simp [hb]
    · intro h; exact absurd (mem_range.2 ha) h
  | succ a ih =>
    obtain ⟨c, h, h0⟩ := ih (by omega)
    refine ⟨fun l => ∑ i ∈ range (a + 1), c i * J i l, ?_, ?_⟩
    · have : (∑ i ∈ range n, C (c i) * q i) = ∑ i ∈ range (a + 1), C (c i) * q i := by
        symm
        refine sum_subset (fun x hx => mem_range.2 (by have := mem_range.1 hx; omega)) fun x _ hx => ?_
        rw [h0 x (by simpa using hx), C_0, zero_mul]
      rw [pow_succ, mul_comm, h, this, mul_sum]
      have e : ∀ i ∈ range (a + 1), X * (C (c i) * q i) = ∑ l ∈ range n, C (c i * J i l) * q l := by
        intro i hi
        have := X_mul_q_sum n i (by have := mem_range.1 hi; omega)
        rw [← mul_assoc, mul_comm X, mul_assoc, this, mul_sum]
        refine sum_congr rfl fun l _ => ?_
        rw [C_mul, mul_assoc]
      rw [sum_congr rfl e, sum_comm]
      refine sum_congr rfl fun l _ => ?_
      rw [map_sum, sum_mul]
    · intro i hi
      refine sum_eq_zero fun l hl => ?_
      have := mem_range.1 hl
      rw [J, if_neg (by omega), if_neg (by omega), mul_zero]

/-- Parseval for a monomial of low degree against any polynomial. -/
theorem parseval (a n : Nat) (ha : a < n) (g : ℝ[X]) :
    ∑ i ∈ range n, L (X ^ a * q i) * L (g * q i) = L (X ^ a * g) := by
  obtain ⟨c, h, -⟩ := pow_expand a n ha
  have hc : ∀ i ∈ range n, L (X ^ a * q i) = c i := by
    intro i hi
    rw [h, sum_mul, L_sum, sum_eq_single i]
    · rw [mul_assoc, L_C_mul, q_orth, if_pos rfl, mul_one]
    · intro b _ hb; rw [mul_assoc, L_C_mul, q_orth, if_neg hb, mul_zero]
    · intro h; exact absurd hi h
  rw [sum_congr rfl fun i hi => by rw [hc i hi], h, sum_mul, L_sum]
  refine sum_congr rfl fun i _ => ?_
  rw [mul_assoc, L_C_mul, mul_comm g]

theorem low_orth (a n : Nat) (ha : a < n) : L (X ^ a * q n) = 0 := by
  obtain ⟨c, h, -⟩ := pow_expand a n ha
  rw [h, sum_mul, L_sum]
  refine sum_eq_zero fun i hi => ?_
  rw [mul_assoc, L_C_mul, q_orth, if_neg (by have := mem_range.1 hi; omega), mul_zero]

/-- One step: multiplication by `X` is the Jacobi matrix. -/
theorem jacobi_step (n j i : Nat) (hj : j < n) (hi : i < n) :
    L (X ^ (j + 1) * q i) = ∑ l ∈ range n, J i l * L (X ^ j * q l) := by
  have e : X ^ (j + 1) * q i = X ^ j * (X * q i) := by ring
  rw [e, X_mul_q_sum (n + 1) i (by omega), mul_sum, L_sum, sum_range_succ]
  have e2 : ∀ l, L (X ^ j * (C (J i l) * q l)) = J i l * L (X ^ j * q l) := by
    intro l
    rw [← L_C_mul]; congr 1; ring
  rw [e2, low_orth j n hj, mul_zero, add_zero]
  exact sum_congr rfl fun l _ => e2 l

theorem gaussMatrix_eq (n i j : Nat) (hi : i < n) : gaussMatrix n i j = if i = j + 1 then β i else 0 := by
  have key : ∀ m, (List.range m).foldl (fun (A : Nat → Nat → ℝ) k => fun a b =>
    if a = k + 1 ∧ b = k + 1 - 1 then ((k + 1 : ℕ) : ℝ) / Real.sqrt (4 * ((k + 1 : ℕ) : ℝ) * ((k + 1 : ℕ) : ℝ) - 1) else A a b)
    (fun _ _ => 0) = fun a b => if a = b + 1 ∧ b < m then β a else 0 := by
    intro m
    induction m with
    | zero => simp
    | succ m ih =>
      rw [List.range_succ, List.foldl_append, ih]
      funext a b
      simp only [List.foldl_cons, List.foldl_nil]
      by_cases h : a = m + 1 ∧ b = m + 1 - 1
      · rw [if_pos h, if_pos ⟨by omega, by omega⟩, h.1]; rfl
      · rw [if_neg h]
        by_cases h' : a = b + 1 ∧ b < m
        · rw [if_pos h', if_pos ⟨h'.1, by omega⟩]
        · rw [if_neg h', if_neg (by omega)]
  rw [gaussMatrix, key]
  show (if i = j + 1 ∧ j < n - 1 then β i else 0) = _
  by_cases h : i = j + 1
  · rw [if_pos ⟨h, by omega⟩, if_pos h]
  · rw [if_neg (by tauto), if_neg h]

theorem sym_eq (n i j : Nat) (hi : i < n) (hj : j < n) :
    (if j ≤ i then gaussMatrix n i j else gaussMatrix n j i) = J i j := by
  rw [gaussMatrix_eq n i j hi, gaussMatrix_eq n j i hj, J]
  split_ifs <;> first | rfl | omega | (subst_vars; rfl)

section rule
variable {n : Nat} {r : EigenPairs} (hr : EigenCorrect n (gaussMatrix n) r)
include hr

theorem eig_row (i : Nat) (hi : i < n) (k : Nat) (hk : k < n) :
    ∑ j ∈ range n, J i j * r.vec j k = r.val k * r.vec i k := by
  rw [← hr.1 i hi k hk]
  exact sum_congr rfl fun j hj => by rw [sym_eq n i j hi (mem_range.1 hj)]

/-- The rows of the matrix of eigenvectors are orthonormal, too. -/
theorem rows_orth (i : Nat) (hi : i < n) (l : Nat) (hl : l < n) :
    ∑ k ∈ range n, r.vec i k * r.vec l k = if i = l then 1 else 0 := by
  let V : Matrix (Fin n) (Fin n) ℝ := fun i k => r.vec i k
  have h : V.transpose * V = 1 := by
    ext k l
    rw [Matrix.mul_apply, Matrix.one_apply]
    have := hr.2 k k.2 l l.2
    rw [← Fin.sum_univ_eq_sum_range (fun j => r.vec j k * r.vec j l)] at this
    simp only [Fin.ext_iff]
    exact this
  have h' := mul_eq_one_comm.1 h
  have := congrFun (congrFun h' ⟨i, hi⟩) ⟨l, hl⟩
  rw [Matrix.mul_apply, Matrix.one_apply] at this
  rw [← Fin.sum_univ_eq_sum_range (fun k => r.vec i k * r.vec l k)]
  simp only [Fin.ext_iff] at this
  exact this

theorem eig_pow (j : Nat) (hj : j ≤ n) (hn : 0 < n) (k : Nat) (hk : k < n) :
    ∑ i ∈ range n, L (X ^ j * q i) * r.vec i k = r.val k ^ j * r.vec 0 k := by
  induction j with
  | zero =>
    rw [sum_eq_single 0]
    · have h := q_orth 0 0
      have e : q 0 = 1 := by simp [q, P]
      rw [e] at h ⊢
      simp at h ⊢; rw [h, one_mul]
    · intro b _ hb
      have h := q_orth 0 b
      have e : q 0 = 1 := by simp [q, P]
      rw [e, if_neg (by omega), one_mul] at h
      rw [pow_zero, one_mul, h, zero_mul]
    · intro h; exact absurd (mem_range.2 hn) h
  | succ j ih =>
    have ih := ih (by omega)
    rw [pow_succ' (r.val k), mul_assoc, ← ih, mul_sum]
    have e : ∀ i ∈ range n, L (X ^ (j + 1) * q i) * r.vec i k =
        ∑ l ∈ range n, J l i * r.vec i k * L (X ^ j * q l) := by
      intro i hi
      rw [jacobi_step n j i (by omega) (mem_range.1 hi), sum_mul]
      exact sum_congr rfl fun l _ => by rw [J_symm]; ring
    rw [sum_congr rfl e, sum_comm]
    refine sum_congr rfl fun l hl => ?_
    rw [← sum_mul, eig_row hr l (mem_range.1 hl) k hk]; ring

/-- Moments of the spectral measure. -/
theorem eig_moments (a b : Nat) (ha : a < n) (hb : b ≤ n) :
    ∑ k ∈ range n, r.vec 0 k * r.vec 0 k * r.val k ^ (a + b) = L (X ^ (a + b)) := by
  have hn : 0 < n := by omega
  have e : ∀ k ∈ range n, r.vec 0 k * r.vec 0 k * r.val k ^ (a + b) =
      ∑ i ∈ range n, ∑ l ∈ range n, L (X ^ a * q i) * L (X ^ b * q l) * (r.vec i k * r.vec l k) := by
    intro k hk
    have h1 := eig_pow hr a (by omega) hn k (mem_range.1 hk)
    have h2 := eig_pow hr b (by omega) hn k (mem_range.1 hk)
    have : r.vec 0 k * r.vec 0 k * r.val k ^ (a + b) = (r.val k ^ a * r.vec 0 k) * (r.val k ^ b * r.vec 0 k) := by
      rw [pow_add]; ring
    rw [this, ← h1, ← h2, sum_mul_sum]
    exact sum_congr rfl fun i _ => sum_congr rfl fun l _ => by ring
  rw [sum_congr rfl e, sum_comm]
  have e2 : ∀ i ∈ range n, ∑ k ∈ range n, ∑ l ∈ range n, L (X ^ a * q i) * L (X ^ b * q l) * (r.vec i k * r.vec l k) =
      L (X ^ a * q i) * L (X ^ b * q i) := by
    intro i hi
    rw [sum_comm, sum_eq_single i]
    · rw [← mul_sum, rows_orth hr i (mem_range.1 hi) i (mem_range.1 hi), if_pos rfl, mul_one]
    · intro l hl hli
      rw [← mul_sum, rows_orth hr i (mem_range.1 hi) l (mem_range.1 hl), if_neg (Ne.symm hli), mul_zero]
    · intro h; exact absurd hi h
  rw [sum_congr rfl e2, parseval a n ha, pow_add]

theorem eig_exact (f : ℝ[X]) (hf : f.natDegree ≤ 2 * n - 1) (hn : 0 < n) :
    ∑ k ∈ range n, r.vec 0 k * r.vec 0 k * f.eval (r.val k) = L f := by
  have h : ∀ j ∈ range (2 * n), ∑ k ∈ range n, r.vec 0 k * r.vec 0 k * r.val k ^ j = L (X ^ j) := by
    intro j hj
    have := mem_range.1 hj
    have e := eig_moments hr (min j (n - 1)) (j - min j (n - 1)) (by omega) (by omega)
    rwa [show min j (n - 1) + (j - min j (n - 1)) = j by omega] at e
  conv_rhs => rw [f.as_sum_range_C_mul_X_pow' (n := 2 * n) (by omega), L_sum]
  rw [sum_congr rfl fun k _ => by rw [eval_eq_sum_range' (n := 2 * n) (by omega) (r.val k), mul_sum], sum_comm]
  refine sum_congr rfl fun j hj => ?_
  rw [L_C_mul, ← h j hj, mul_sum]
  exact sum_congr rfl fun k _ => by ring

end rule

end Legendre
end Bembel
