import Verif.Lemmas.Bernstein
import Mathlib.RingTheory.Polynomial.Bernstein
import Mathlib.Analysis.Calculus.Deriv.Polynomial
import Mathlib.Algebra.Order.BigOperators.Ring.Finset
import Mathlib.Tactic.Positivity
import Mathlib.Tactic.NormNum
/-!
# Property theorems C01–C05: shape functions (Bernstein basis)
-/

open Finset

namespace Bembel.Props

open Bembel.Basis

variable {K : Type*} [CommRing K]

/-! ## C01 -/

/-- C01 (basis values): slot `i ≤ p` receives the Bernstein value, every other slot keeps its value. -/
theorem C01_basis (p : Nat) (buf : Nat → K) (x : K) (i : Nat) :
    EvalBernsteinBasis p buf x i =
      if i ≤ p then (p.choose i : K) * x ^ i * (1 - x) ^ (p - i) else buf i :=
  evalBasis_apply p p buf x i

/-- C01 (accumulating variant). -/
theorem C01_basisPEQ (p : Nat) (buf : Nat → K) (x : K) (i : Nat) :
    EvalBernsteinBasisPEQ p buf x i =
      if i ≤ p then buf i + (p.choose i : K) * x ^ i * (1 - x) ^ (p - i) else buf i :=
  evalBasisPEQ_apply p p buf x i

/-- C01 (coefficient vector): the value is the linear combination, only `coef 0..p` matter. -/
theorem C01_coefs (p : Nat) (coef : Nat → K) (x : K) :
    EvalBernstein p coef x =
      ∑ i ∈ range (p + 1), coef i * ((p.choose i : K) * x ^ i * (1 - x) ^ (p - i)) :=
  evalCoefs_eq p p coef x

/-- C01 (weighted evaluation `phi`): adds `w` times the basis value to slots `0..p`, whatever
the stack buffer contained before. -/
theorem C01_phi (junk : Nat → K) (p : Nat) (c : Nat → K) (w x : K) (i : Nat) :
    phi junk p c w x i =
      if i ≤ p then c i + w * ((p.choose i : K) * x ^ i * (1 - x) ^ (p - i)) else c i := by
  have h := forLoop_add_apply (p + 1) (fun i => w * EvalBernsteinBasis p junk x i) c 0 i
  simp only [Nat.zero_add, Nat.zero_le, true_and, Nat.sub_zero] at h
  unfold phi
  rw [h, C01_basis]
  by_cases h1 : i ≤ p
  · rw [if_pos (by omega), if_pos h1, if_pos h1]
  · rw [if_neg (by omega), if_neg h1]

example : EvalBernsteinBasis 2 (fun _ => (7 : ℚ)) (1 / 2) 1 = 1 / 2 := by
  rw [C01_basis]; norm_num
example : EvalBernsteinBasis 2 (fun _ => (7 : ℚ)) (1 / 2) 3 = 7 := by
  rw [C01_basis]; norm_num

/-! ## C02 -/

/-- C02: the basis values of every degree sum to one at every point. -/
theorem C02_partition_of_unity (p : Nat) (buf : Nat → K) (x : K) :
    ∑ i ∈ range (p + 1), EvalBernsteinBasis p buf x i = 1 := by
  rw [← sum_bern p x]
  exact Finset.sum_congr rfl fun i hi => by
    rw [C01_basis, if_pos (Nat.lt_succ_iff.1 (Finset.mem_range.1 hi))]; rfl

/-- C02: on `[0,1]` every basis value lies in `[0,1]`. -/
theorem C02_range {F : Type*} [Field F] [LinearOrder F] [IsStrictOrderedRing F]
    (p : Nat) (buf : Nat → F) (x : F) (h0 : 0 ≤ x) (h1 : x ≤ 1) (i : Nat) (hi : i ≤ p) :
    0 ≤ EvalBernsteinBasis p buf x i ∧ EvalBernsteinBasis p buf x i ≤ 1 := by
  have hx : 0 ≤ 1 - x := sub_nonneg.2 h1
  have nn : ∀ j, j ≤ p → 0 ≤ EvalBernsteinBasis p buf x j := fun j hj => by
    rw [C01_basis, if_pos hj]; positivity
  refine ⟨nn i hi, ?_⟩
  rw [← C02_partition_of_unity p buf x]
  exact Finset.single_le_sum (f := fun j => EvalBernsteinBasis p buf x j)
    (fun j hj => nn j (Nat.lt_succ_iff.1 (Finset.mem_range.1 hj))) (Finset.mem_range.2 (by omega))

/-- C02: the value of a coefficient vector with constant entries is the constant. -/
theorem C02_constants (p : Nat) (a x : K) : EvalBernstein p (fun _ => a) x = a := by
  rw [C01_coefs, ← Finset.mul_sum]
  have := sum_bern p x
  simp only [Spec.bern] at this
  rw [this, mul_one]

example : (0 : ℚ) ≤ 1 / 3 ∧ (1 / 3 : ℚ) ≤ 1 ∧ 2 ≤ 5 := by norm_num

/-! ## C03 -/

/-- Bernstein specification = evaluation of Mathlib's Bernstein polynomial. -/
theorem bern_eq_poly (p i : Nat) (x : K) :
    Spec.bern p i x = (bernsteinPolynomial K p i).eval x := by
  simp [Spec.bern, bernsteinPolynomial]

/-- C03 (basis): slot `i ≤ p` receives the derivative at `x` of the polynomial
`C(p,i) X^i (1-X)^(p-i)`, every other slot keeps its value. -/
theorem C03_der_basis (p : Nat) (buf : Nat → K) (x : K) (i : Nat) :
    EvalBernsteinDerBasis p buf x i =
      if i ≤ p then (Polynomial.derivative (bernsteinPolynomial K p i)).eval x else buf i := by
  match p with
  | 0 =>
    by_cases h : i = 0
    · subst h; simp [EvalBernsteinDerBasis, bernsteinPolynomial]
    · simp [EvalBernsteinDerBasis, upd_ne _ _ h, h]
  | Q + 1 =>
    simp only [EvalBernsteinDerBasis]
    rw [evalDerBasis_apply]
    by_cases h : i ≤ Q
    · rw [if_pos h, if_pos (by omega)]
      match i with
      | 0 =>
        rw [bernsteinPolynomial.derivative_zero]
        simp [derSlot, bern_eq_poly]; ring
      | i + 1 =>
        rw [bernsteinPolynomial.derivative_succ]
        simp [derSlot, bern_eq_poly]
    · rw [if_neg h]
      by_cases h1 : i = Q + 1
      · subst h1
        rw [upd_self, if_pos le_rfl, bernsteinPolynomial.derivative_succ,
          bernstein_eq, bern_eq_poly]
        have : bernsteinPolynomial K Q (Q + 1) = 0 :=
          bernsteinPolynomial.eq_zero_of_lt K (by omega)
        simp [this]
      · rw [upd_ne _ _ h1, if_neg (by omega)]

/-- C03 (accumulating variant): adds the derivative. -/
theorem C03_der_basisPEQ (p : Nat) (buf : Nat → K) (x : K) (i : Nat) :
    EvalBernsteinDerBasisPEQ p buf x i =
      if i ≤ p then buf i + (Polynomial.derivative (bernsteinPolynomial K p i)).eval x
      else buf i := by
  have key := C03_der_basis p buf x i
  match p with
  | 0 =>
    by_cases h : i = 0
    · subst h; simp [EvalBernsteinDerBasisPEQ, bernsteinPolynomial]
    · simp [EvalBernsteinDerBasisPEQ, upd_ne _ _ h, h]
  | Q + 1 =>
    simp only [EvalBernsteinDerBasis, EvalBernsteinDerBasisPEQ] at key ⊢
    rw [evalDerBasis_apply] at key
    rw [evalDerBasisPEQ_apply]
    by_cases h : i ≤ Q
    · rw [if_pos h, if_pos (by omega)] at key
      rw [if_pos h, if_pos (by omega), upd_ne _ _ (by omega), key]
    · rw [if_neg h] at key ⊢
      by_cases h1 : i = Q + 1
      · subst h1
        rw [upd_self, if_pos le_rfl] at key ⊢
        rw [key]
      · rw [upd_ne _ _ h1, if_neg (by omega)]

/-- C03 (coefficients): the derivative evaluator returns the derivative of the polynomial
`Σ coef_i B_{i,p}`, for every degree (including 0). -/
theorem C03_der_coefs (p : Nat) (coef : Nat → K) (x : K) :
    EvalBernsteinDer p coef x =
      (Polynomial.derivative
        (∑ i ∈ range (p + 1), Polynomial.C (coef i) * bernsteinPolynomial K p i)).eval x := by
  match p with
  | 0 => simp [EvalBernsteinDer, bernsteinPolynomial]
  | Q + 1 =>
    simp only [EvalBernsteinDer]
    rw [evalDerCoefs_eq, Polynomial.derivative_sum, Polynomial.eval_finsetSum]
    rw [Finset.sum_range_succ' _ (Q + 1)]
    simp only [Polynomial.derivative_C_mul, bernsteinPolynomial.derivative_succ,
      bernsteinPolynomial.derivative_zero, Polynomial.eval_mul, Polynomial.eval_C,
      Polynomial.eval_sub, Polynomial.eval_add, Polynomial.eval_natCast, Polynomial.eval_one,
      Polynomial.eval_neg, ← bern_eq_poly, Nat.add_sub_cancel]
    rw [Finset.sum_congr rfl (fun i (_ : i ∈ range (Q + 1)) =>
      show coef (i + 1) * (((Q + 1 : Nat) : K) * (Spec.bern Q i x - Spec.bern Q (i + 1) x)) =
        ((Q + 1 : Nat) : K) * (coef (i + 1) * Spec.bern Q i x) -
          ((Q + 1 : Nat) : K) * (coef (i + 1) * Spec.bern Q (i + 1) x) by ring)]
    rw [Finset.sum_sub_distrib, ← Finset.mul_sum, ← Finset.mul_sum]
    have h2 : ∑ i ∈ range (Q + 1), coef (i + 1) * Spec.bern Q (i + 1) x =
        ∑ i ∈ range (Q + 1), coef i * Spec.bern Q i x - coef 0 * Spec.bern Q 0 x := by
      have := Finset.sum_range_succ' (fun i => coef i * Spec.bern Q i x) (Q + 1)
      rw [Finset.sum_range_succ] at this
      rw [bern_eq_zero_of_lt (p := Q) (i := Q + 1) (by omega) x] at this
      simp only [mul_zero, add_zero] at this
      rw [this]; ring
    rw [h2]
    simp only [sub_mul, Finset.sum_sub_distrib]
    push_cast
    ring

/-- C03 over the reals: the derivative evaluator is the derivative of the value evaluator, as functions
of `x` (both run on the same coefficient vector). -/
theorem C03_hasDerivAt (p : Nat) (coef : Nat → ℝ) (x : ℝ) :
    HasDerivAt (fun t => EvalBernstein p coef t) (EvalBernsteinDer p coef x) x := by
  rw [C03_der_coefs]
  have : (fun t => EvalBernstein p coef t) = fun t =>
      (∑ i ∈ range (p + 1), Polynomial.C (coef i) * bernsteinPolynomial ℝ p i).eval t := by
    funext t
    rw [C01_coefs, Polynomial.eval_finsetSum]
    exact Finset.sum_congr rfl fun i _ => by
      rw [Polynomial.eval_mul, Polynomial.eval_C, ← bern_eq_poly]; rfl
  rw [this]
  exact Polynomial.hasDerivAt _ x

/-- C03 over the reals, basis version: slot `i` of the derivative buffer is the derivative of slot `i` of
the value buffer. -/
theorem C03_basis_hasDerivAt (p : Nat) (buf buf' : Nat → ℝ) (x : ℝ) (i : Nat) (hi : i ≤ p) :
    HasDerivAt (fun t => EvalBernsteinBasis p buf t i) (EvalBernsteinDerBasis p buf' x i) x := by
  rw [C03_der_basis, if_pos hi]
  have : (fun t => EvalBernsteinBasis p buf t i) =
      fun t => (bernsteinPolynomial ℝ p i).eval t := by
    funext t
    rw [C01_basis, if_pos hi, ← bern_eq_poly]; rfl
  rw [this]
  exact Polynomial.hasDerivAt _ x

/-- C03 consequence: the derivative basis values sum to zero. -/
theorem C03_sum_zero (p : Nat) (buf : Nat → K) (x : K) :
    ∑ i ∈ range (p + 1), EvalBernsteinDerBasis p buf x i = 0 := by
  have h : ∑ i ∈ range (p + 1), EvalBernsteinDerBasis p buf x i =
      (Polynomial.derivative (∑ i ∈ range (p + 1), bernsteinPolynomial K p i)).eval x := by
    rw [Polynomial.derivative_sum, Polynomial.eval_finsetSum]
    exact Finset.sum_congr rfl fun i hi => by
      rw [C03_der_basis, if_pos (Nat.lt_succ_iff.1 (Finset.mem_range.1 hi))]
  rw [h, bernsteinPolynomial.sum]; simp

example : EvalBernsteinDer 3 (fun i => (i : ℚ) ^ 2) (1 / 2) = 9 := by
  norm_num [EvalBernsteinDer, evalDerCoefs, bernstein, binomial, bernsteinX]

/-! ## C04 -/

/-- C04 (in range): for every `0 ≤ p ≤ 20` the four run-time members run the degree-`p` code. -/
theorem C04_dispatch_partial (p : Int) (h0 : 0 ≤ p) (h1 : p ≤ 20) (ar : Nat → K) (x : K) :
    handlerEvalCoef p ar x = EvalBernstein p.toNat ar x ∧
    handlerEvalDerCoef p ar x = EvalBernsteinDer p.toNat ar x ∧
    handlerEvalBasis p ar x = EvalBernsteinBasis p.toNat ar x ∧
    handlerEvalDerBasis p ar x = EvalBernsteinDerBasis p.toNat ar x := by
  have h : 0 ≤ p ∧ p ≤ ((MaxP : Nat) : Int) := ⟨h0, by simpa [MaxP] using h1⟩
  refine ⟨?_, ?_, ?_, ?_⟩ <;>
  simp only [handlerEvalCoef, handlerEvalDerCoef, handlerEvalBasis, handlerEvalDerBasis,
    dispatch_eq, if_pos h]

/-- C04 is false of the code outside that range: every other degree is silently replaced by degree 0
(the `checkP` guard exists but is not called by the handlers). -/
theorem C04_out_of_range (p : Int) (h : p < 0 ∨ 20 < p) (ar : Nat → K) (x : K) :
    handlerEvalCoef p ar x = EvalBernstein 0 ar x ∧
    handlerEvalDerCoef p ar x = EvalBernsteinDer 0 ar x ∧
    handlerEvalBasis p ar x = EvalBernsteinBasis 0 ar x ∧
    handlerEvalDerBasis p ar x = EvalBernsteinDerBasis 0 ar x := by
  have h' : ¬ (0 ≤ p ∧ p ≤ ((MaxP : Nat) : Int)) := by simp only [MaxP]; omega
  refine ⟨?_, ?_, ?_, ?_⟩ <;>
  simp only [handlerEvalCoef, handlerEvalDerCoef, handlerEvalBasis, handlerEvalDerBasis, dispatch_eq, if_neg h']

/-- C04, negation with a witness: requesting degree 21 of the coefficient vector `0,1,1,1,…` at `x = 1`
yields 0, although the degree-21 polynomial has the value 1 there. -/
theorem C04_violated :
    handlerEvalCoef 21 (fun i => if i = 0 then (0 : ℚ) else 1) 1 = 0 ∧
    EvalBernstein 21 (fun i => if i = 0 then (0 : ℚ) else 1) 1 = 1 := by
  constructor
  · rw [(C04_out_of_range 21 (by omega) _ _).1, C01_coefs]; simp
  · rw [C01_coefs, Finset.sum_eq_single 21]
    · simp
    · intro b hb hne
      have : 21 - b ≠ 0 := by
        have := Finset.mem_range.1 hb; omega
      simp [this]
    · intro h; exact absurd (Finset.mem_range.2 (by omega)) h

example : (0 : Int) ≤ 7 ∧ (7 : Int) ≤ 20 := by omega

/-! ## C05 -/

/-- basis value used in the statements of C05 -/
abbrev B (p i : Nat) (x : K) : K := (p.choose i : K) * x ^ i * (1 - x) ^ (p - i)

/-- C05: `phiphi` adds `w*B_ix(x)*B_iy(y)` to slot `iy*(p+1)+ix`. -/
theorem C05_phiPhi (junk : Nat → K) (p : Nat) (c : Nat → K) (w : K) (a : K × K)
    (ix iy : Nat) (hx : ix ≤ p) (hy : iy ≤ p) :
    phiPhi junk p c w a (iy * (p + 1) + ix) =
      c (iy * (p + 1) + ix) + w * B p ix a.1 * B p iy a.2 := by
  have hI : 0 < p + 1 := by omega
  have hlt : iy * (p + 1) + ix < (p + 1) * (p + 1) := by nlinarith
  have hm : (iy * (p + 1) + ix) % (p + 1) = ix := by
    rw [Nat.add_comm, Nat.add_mul_mod_self_right]; exact Nat.mod_eq_of_lt (by omega)
  have hd : (iy * (p + 1) + ix) / (p + 1) = iy := by
    rw [Nat.add_comm, Nat.add_mul_div_right _ _ hI, Nat.div_eq_of_lt (by omega)]; simp
  rw [phiPhi, tensorLoop_apply, if_pos hlt, hm, hd, C01_basis, if_pos hx, C01_basis, if_pos hy]

/-- C05: x-derivative variant. -/
theorem C05_phiPhiDx (junk : Nat → K) (p : Nat) (c : Nat → K) (w : K) (a : K × K)
    (ix iy : Nat) (hx : ix ≤ p) (hy : iy ≤ p) :
    phiPhiDx junk p c w a (iy * (p + 1) + ix) =
      c (iy * (p + 1) + ix) +
        w * (Polynomial.derivative (bernsteinPolynomial K p ix)).eval a.1 * B p iy a.2 := by
  have hI : 0 < p + 1 := by omega
  have hlt : iy * (p + 1) + ix < (p + 1) * (p + 1) := by nlinarith
  have hm : (iy * (p + 1) + ix) % (p + 1) = ix := by
    rw [Nat.add_comm, Nat.add_mul_mod_self_right]; exact Nat.mod_eq_of_lt (by omega)
  have hd : (iy * (p + 1) + ix) / (p + 1) = iy := by
    rw [Nat.add_comm, Nat.add_mul_div_right _ _ hI, Nat.div_eq_of_lt (by omega)]; simp
  rw [phiPhiDx, tensorLoop_apply, if_pos hlt, hm, hd, C03_der_basis, if_pos hx, C01_basis,
    if_pos hy]

/-- C05: y-derivative variant. -/
theorem C05_phiPhiDy (junk : Nat → K) (p : Nat) (c : Nat → K) (w : K) (a : K × K)
    (ix iy : Nat) (hx : ix ≤ p) (hy : iy ≤ p) :
    phiPhiDy junk p c w a (iy * (p + 1) + ix) =
      c (iy * (p + 1) + ix) +
        w * B p ix a.1 * (Polynomial.derivative (bernsteinPolynomial K p iy)).eval a.2 := by
  have hI : 0 < p + 1 := by omega
  have hlt : iy * (p + 1) + ix < (p + 1) * (p + 1) := by nlinarith
  have hm : (iy * (p + 1) + ix) % (p + 1) = ix := by
    rw [Nat.add_comm, Nat.add_mul_mod_self_right]; exact Nat.mod_eq_of_lt (by omega)
  have hd : (iy * (p + 1) + ix) / (p + 1) = iy := by
    rw [Nat.add_comm, Nat.add_mul_div_right _ _ hI, Nat.div_eq_of_lt (by omega)]; simp
  rw [phiPhiDy, tensorLoop_apply, if_pos hlt, hm, hd, C03_der_basis, if_pos hy, C01_basis,
    if_pos hx]

/-- C05 frame: slots beyond `(p+1)^2` are not touched by any of the three variants. -/
theorem C05_frame (junk : Nat → K) (p : Nat) (c : Nat → K) (w : K) (a : K × K) (i : Nat)
    (hi : (p + 1) * (p + 1) ≤ i) :
    phiPhi junk p c w a i = c i ∧ phiPhiDx junk p c w a i = c i ∧ phiPhiDy junk p c w a i = c i := by
  refine ⟨?_, ?_, ?_⟩
  · rw [phiPhi, tensorLoop_apply, if_neg (by omega)]
  · rw [phiPhiDx, tensorLoop_apply, if_neg (by omega)]
  · rw [phiPhiDy, tensorLoop_apply, if_neg (by omega)]

/-- C05: the interaction matrix adds `w * b_i(xi) * b_j(eta)` to entry `(i,j)`, where `b` is the tensor
basis in the same ordering as `phiphi`, and leaves everything outside the block alone. -/
theorem C05_phiTimesPhi (junk : Nat → K) (p : Nat) (c : Nat → Nat → K) (w : K) (xi eta : K × K)
    (i j : Nat) :
    phiTimesPhi junk p c w xi eta i j =
      if i < (p + 1) * (p + 1) ∧ j < (p + 1) * (p + 1) then
        c i j + w * phiPhi junk p (fun _ => 0) 1 xi i * phiPhi junk p (fun _ => 0) 1 eta j
      else c i j := by
  have hI : 0 < p + 1 := by omega
  unfold phiTimesPhi
  rw [outerLoop_apply]
  by_cases h : i < (p + 1) * (p + 1) ∧ j < (p + 1) * (p + 1)
  · rw [if_pos (by omega), if_pos h]
    rw [Nat.sub_zero, Nat.sub_zero, phiPhi, phiPhi, tensorLoop_apply, tensorLoop_apply,
      if_pos h.1, if_pos h.2, fillLoop, fillLoop1,
      fillLoop_apply_gen (p + 1) (p + 1) hI
        (fun ix iy => w * EvalBernsteinBasis p junk xi.1 ix * EvalBernsteinBasis p junk xi.2 iy),
      fillLoop_apply_gen (p + 1) (p + 1) hI
        (fun ix iy => EvalBernsteinBasis p junk eta.1 ix * EvalBernsteinBasis p junk eta.2 iy),
      if_pos h.1, if_pos h.2]
    ring
  · rw [if_neg (by omega), if_neg h]

/-- C05: the divergence interaction has the four blocks
`(∂x b_i)(∂x b_j)`, `(∂x b_i)(∂y b_j)`, `(∂y b_i)(∂x b_j)`, `(∂y b_i)(∂y b_j)`. -/
theorem C05_divPhi (junk : Nat → K) (p : Nat) (c : Nat → Nat → K) (w : K) (xi eta : K × K)
    (i j : Nat) (hi : i < (p + 1) * (p + 1)) (hj : j < (p + 1) * (p + 1)) :
    let n := (p + 1) * (p + 1)
    let dx := fun (q : K × K) k => phiPhiDx junk p (fun _ => 0) 1 q k
    let dy := fun (q : K × K) k => phiPhiDy junk p (fun _ => 0) 1 q k
    divPhiTimesDivPhi junk p c w xi eta i j = c i j + w * dx xi i * dx eta j ∧
    divPhiTimesDivPhi junk p c w xi eta i (j + n) = c i (j + n) + w * dx xi i * dy eta j ∧
    divPhiTimesDivPhi junk p c w xi eta (i + n) j = c (i + n) j + w * dy xi i * dx eta j ∧
    divPhiTimesDivPhi junk p c w xi eta (i + n) (j + n) =
      c (i + n) (j + n) + w * dy xi i * dy eta j := by
  intro n dx dy
  have hsc : ∀ q : K × K, phiPhiDx junk p (fun _ => 0) w q i = w * dx q i := fun q => by
    simp only [dx, phiPhiDx, tensorLoop_apply, if_pos hi]; ring
  have hsc' : ∀ q : K × K, phiPhiDy junk p (fun _ => 0) w q i = w * dy q i := fun q => by
    simp only [dy, phiPhiDy, tensorLoop_apply, if_pos hi]; ring
  have hn : n = (p + 1) * (p + 1) := rfl
  refine ⟨?_, ?_, ?_, ?_⟩ <;>
  · simp only [divPhiTimesDivPhi, outerLoop_apply]
    repeat first | rw [if_pos (by omega)] | rw [if_neg (by omega)]
    simp only [hn, Nat.add_sub_cancel, Nat.sub_zero, hsc, hsc']
    try rfl

example : phiPhi (fun _ => (9 : ℚ)) 1 (fun _ => 0) 2 (1 / 2, 1 / 4) (0 * (1 + 1) + 1) = 3 / 4 := by
  rw [C05_phiPhi] <;> norm_num [B]

end Bembel.Props
