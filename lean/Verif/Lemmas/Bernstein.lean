import Verif.Model.Bernstein
import Verif.Spec.Bernstein
import Mathlib.Algebra.BigOperators.Group.Finset.Basic
import Mathlib.Algebra.BigOperators.Intervals
import Mathlib.Algebra.BigOperators.Ring.Finset
import Mathlib.Data.Nat.Choose.Sum
import Mathlib.Tactic.Ring
import Mathlib.Tactic.Linarith
import Mathlib.Tactic.FieldSimp

open Finset

namespace Bembel

section upd
variable {K : Type*}
@[simp] theorem upd_self (b : Nat → K) (n : Nat) (v : K) : upd b n v n = v := by simp [upd]
theorem upd_ne (b : Nat → K) {n i : Nat} (v : K) (h : i ≠ n) : upd b n v i = b i := by
  simp [upd, h]
end upd

namespace Basis

theorem binomial_eq_choose (k n : Nat) : binomial k n = n.choose k := by
  induction k, n using binomial.induct with
  | case1 n => simp [binomial]
  | case2 k => simp [binomial]
  | case3 k => simp [binomial]
  | case4 k n h1 h2 =>
      rw [binomial, if_neg h1, if_pos h2, Nat.choose_eq_zero_of_lt (by omega)]
  | case5 k n h1 h2 ih1 ih2 =>
      rw [binomial, if_neg h1, if_neg h2, ih1, ih2, Nat.choose_succ_succ]

variable {K : Type*} [CommRing K]

theorem bernsteinX_eq_pow (n : Nat) (x : K) : bernsteinX n x = x ^ n := by
  induction n using Nat.strong_induction_on with
  | _ n ih =>
    match n with
    | 0 => simp [bernsteinX]
    | 1 => simp [bernsteinX]
    | n + 2 => rw [bernsteinX, ih (n + 1) (by omega)]; ring

theorem bernstein_eq (N P : Nat) (x : K) : bernstein N P x = Spec.bern P N x := by
  simp [bernstein, Spec.bern, binomial_eq_choose, bernsteinX_eq_pow]

theorem evalCoefs_eq (P N : Nat) (inn : Nat → K) (x : K) :
    evalCoefs P N inn x = ∑ i ∈ range (N + 1), inn i * Spec.bern P i x := by
  induction N with
  | zero => simp [evalCoefs, bernstein_eq]
  | succ N ih => rw [evalCoefs, ih, bernstein_eq, Finset.sum_range_succ _ (N + 1)]; ring

theorem evalDerCoefs_eq (P N : Nat) (inn : Nat → K) (x : K) :
    evalDerCoefs P N inn x =
      ∑ i ∈ range (N + 1), (inn (i + 1) - inn i) * Spec.bern P i x := by
  induction N with
  | zero => simp [evalDerCoefs, bernstein_eq]
  | succ N ih => rw [evalDerCoefs, ih, bernstein_eq, Finset.sum_range_succ _ (N + 1)]; ring

theorem evalBasis_apply (P N : Nat) (inn : Nat → K) (x : K) (i : Nat) :
    evalBasis P N inn x i = if i ≤ N then Spec.bern P i x else inn i := by
  induction N generalizing inn with
  | zero =>
      by_cases h : i = 0
      · subst h; simp [evalBasis, bernstein_eq]
      · simp [evalBasis, upd_ne _ _ h, h]
  | succ N ih =>
      rw [evalBasis, ih]
      by_cases h : i ≤ N
      · simp [h, Nat.le_succ_of_le h]
      · by_cases h' : i = N + 1
        · subst h'; simp [bernstein_eq]
        · rw [if_neg h, if_neg (by omega), upd_ne _ _ h']

theorem evalBasisPEQ_apply (P N : Nat) (inn : Nat → K) (x : K) (i : Nat) :
    evalBasisPEQ P N inn x i = if i ≤ N then inn i + Spec.bern P i x else inn i := by
  induction N generalizing inn with
  | zero =>
      by_cases h : i = 0
      · subst h; simp [evalBasisPEQ, bernstein_eq]
      · simp [evalBasisPEQ, upd_ne _ _ h, h]
  | succ N ih =>
      rw [evalBasisPEQ, ih]
      by_cases h : i ≤ N
      · simp [h, Nat.le_succ_of_le h, upd_ne _ _ (show i ≠ N + 1 by omega)]
      · by_cases h' : i = N + 1
        · subst h'; simp [bernstein_eq]
        · rw [if_neg h, if_neg (by omega), upd_ne _ _ h']

/-- value written by the derivative recursion in slot `i` -/
def derSlot (P i : Nat) (x : K) : K :=
  if i = 0 then (-(P : K) - 1) * Spec.bern P 0 x
  else ((P : K) + 1) * (Spec.bern P (i - 1) x - Spec.bern P i x)

theorem evalDerBasis_apply (P N : Nat) (inn : Nat → K) (x : K) (i : Nat) :
    evalDerBasis P N inn x i = if i ≤ N then derSlot P i x else inn i := by
  induction N generalizing inn with
  | zero =>
      by_cases h : i = 0
      · subst h; simp [evalDerBasis, bernstein_eq, derSlot]
      · simp [evalDerBasis, upd_ne _ _ h, h]
  | succ N ih =>
      rw [evalDerBasis, ih]
      by_cases h : i ≤ N
      · simp [h, Nat.le_succ_of_le h]
      · by_cases h' : i = N + 1
        · subst h'; simp [bernstein_eq, derSlot]
        · rw [if_neg h, if_neg (by omega), upd_ne _ _ h']

theorem evalDerBasisPEQ_apply (P N : Nat) (inn : Nat → K) (x : K) (i : Nat) :
    evalDerBasisPEQ P N inn x i = if i ≤ N then inn i + derSlot P i x else inn i := by
  induction N generalizing inn with
  | zero =>
      by_cases h : i = 0
      · subst h; simp [evalDerBasisPEQ, bernstein_eq, derSlot]
      · simp [evalDerBasisPEQ, upd_ne _ _ h, h]
  | succ N ih =>
      rw [evalDerBasisPEQ, ih]
      by_cases h : i ≤ N
      · simp [h, Nat.le_succ_of_le h, upd_ne _ _ (show i ≠ N + 1 by omega)]
      · by_cases h' : i = N + 1
        · subst h'; simp [bernstein_eq, derSlot]
        · rw [if_neg h, if_neg (by omega), upd_ne _ _ h']

theorem bern_eq_zero_of_lt {p i : Nat} (h : p < i) (x : K) : Spec.bern p i x = 0 := by
  simp [Spec.bern, Nat.choose_eq_zero_of_lt h]

theorem sum_bern (p : Nat) (x : K) : ∑ i ∈ range (p + 1), Spec.bern p i x = 1 := by
  have h := add_pow x (1 - x) p
  rw [add_sub_cancel, one_pow] at h
  rw [h]
  exact Finset.sum_congr rfl fun i _ => by simp [Spec.bern]; ring

theorem forLoop_succ {σ : Type*} (n : Nat) (body : σ → Nat → σ) (s : σ) :
    forLoop (n + 1) body s = body (forLoop n body s) n := by
  simp [forLoop, List.range_succ]

@[simp] theorem forLoop_zero {σ : Type*} (body : σ → Nat → σ) (s : σ) :
    forLoop 0 body s = s := by simp [forLoop]

theorem forLoop_add_apply (n : Nat) (v : Nat → K) (c : Nat → K) (off i : Nat) :
    forLoop n (fun c k => upd c (off + k) (c (off + k) + v k)) c i =
      if off ≤ i ∧ i < off + n then c i + v (i - off) else c i := by
  induction n with
  | zero => rw [forLoop_zero, if_neg (by omega)]
  | succ n ih =>
    rw [forLoop_succ]
    by_cases h : i = off + n
    · subst h
      rw [upd_self, ih]; simp
    · rw [upd_ne _ _ h, ih]
      by_cases h1 : off ≤ i ∧ i < off + n
      · rw [if_pos h1, if_pos ⟨h1.1, by omega⟩]
      · rw [if_neg h1, if_neg (by omega)]

theorem forLoop_set_apply (n : Nat) (v : Nat → K) (c : Nat → K) (off i : Nat) :
    forLoop n (fun c k => upd c (off + k) (v k)) c i =
      if off ≤ i ∧ i < off + n then v (i - off) else c i := by
  induction n with
  | zero => rw [forLoop_zero, if_neg (by omega)]
  | succ n ih =>
    rw [forLoop_succ]
    by_cases h : i = off + n
    · subst h
      rw [upd_self]; simp
    · rw [upd_ne _ _ h, ih]
      by_cases h1 : off ≤ i ∧ i < off + n
      · rw [if_pos h1, if_pos ⟨h1.1, by omega⟩]
      · rw [if_neg h1, if_neg (by omega)]

theorem divmod_block {I iy i : Nat} (hI : 0 < I) :
    (iy * I ≤ i ∧ i < iy * I + I) ↔ i / I = iy := by
  constructor
  · rintro ⟨h1, h2⟩
    exact Nat.div_eq_of_lt_le h1 (by rw [Nat.add_mul, one_mul]; exact h2)
  · rintro rfl
    exact ⟨Nat.div_mul_le_self i I, by
      have := Nat.lt_div_mul_add (a := i) hI; omega⟩

theorem block_aux {I i : Nat} : i - i / I * I = i % I := by
  have := Nat.div_add_mod i I
  rw [Nat.mul_comm] at this; omega

theorem tensorLoop_apply_gen (I m : Nat) (hI : 0 < I) (X Y : Nat → K) (w : K) (c : Nat → K)
    (i : Nat) :
    forLoop m (fun c iy =>
      forLoop I (fun c ix => upd c (iy * I + ix) (c (iy * I + ix) + w * X ix * Y iy)) c) c i =
      if i < m * I then c i + w * X (i % I) * Y (i / I) else c i := by
  induction m with
  | zero => simp
  | succ m ih =>
    rw [forLoop_succ, forLoop_add_apply I (fun ix => w * X ix * Y m), ih]
    have hb := divmod_block (I := I) (iy := m) (i := i) hI
    have e : (m + 1) * I = m * I + I := by ring
    by_cases h : m * I ≤ i ∧ i < m * I + I
    · have h' := hb.1 h
      rw [if_pos h, if_neg (by omega), if_pos (by omega), ← block_aux, h']
    · rw [if_neg h]
      by_cases h2 : i < m * I
      · rw [if_pos h2, if_pos (by omega)]
      · rw [if_neg h2, if_neg (by omega)]

theorem tensorLoop_apply (I : Nat) (X Y : Nat → K) (w : K) (c : Nat → K) (i : Nat) :
    tensorLoop I X Y w c i =
      if i < I * I then c i + w * X (i % I) * Y (i / I) else c i := by
  rcases Nat.eq_zero_or_pos I with rfl | hI
  · simp [tensorLoop]
  · exact tensorLoop_apply_gen I I hI X Y w c i

theorem fillLoop_apply_gen (I m : Nat) (hI : 0 < I) (g : Nat → Nat → K) (c : Nat → K)
    (i : Nat) :
    forLoop m (fun c iy =>
      forLoop I (fun c ix => upd c (iy * I + ix) (g ix iy)) c) c i =
      if i < m * I then g (i % I) (i / I) else c i := by
  induction m with
  | zero => simp
  | succ m ih =>
    rw [forLoop_succ, forLoop_set_apply I (fun ix => g ix m), ih]
    have hb := divmod_block (I := I) (iy := m) (i := i) hI
    have e : (m + 1) * I = m * I + I := by ring
    by_cases h : m * I ≤ i ∧ i < m * I + I
    · have h' := hb.1 h
      rw [if_pos h, if_pos (by omega), ← block_aux, h']
    · rw [if_neg h]
      by_cases h2 : i < m * I
      · rw [if_pos h2, if_pos (by omega)]
      · rw [if_neg h2, if_neg (by omega)]

omit [CommRing K] in
theorem upd2_apply (c : Nat → Nat → K) (i j : Nat) (v : K) (i' j' : Nat) :
    upd2 c i j v i' j' = if i' = i ∧ j' = j then v else c i' j' := rfl

theorem outer_inner_apply (n ro co r : Nat) (b : Nat → K) (a : K) (c : Nat → Nat → K) (i j : Nat) :
    forLoop n (fun c j => upd2 c (r + ro) (j + co) (c (r + ro) (j + co) + a * b j)) c i j =
      if i = r + ro ∧ co ≤ j ∧ j < n + co then c i j + a * b (j - co) else c i j := by
  induction n with
  | zero => rw [forLoop_zero, if_neg (by omega)]
  | succ n ih =>
    rw [forLoop_succ, upd2_apply]
    by_cases h : i = r + ro ∧ j = n + co
    · obtain ⟨h1, h2⟩ := h
      subst h1 h2
      rw [if_pos ⟨rfl, rfl⟩, ih, if_neg (by omega), if_pos (by omega)]
      simp
    · rw [if_neg h, ih]
      by_cases h1 : i = r + ro ∧ co ≤ j ∧ j < n + co
      · rw [if_pos h1, if_pos ⟨h1.1, h1.2.1, by omega⟩]
      · rw [if_neg h1, if_neg (by omega)]

theorem outerLoop_apply (n ro co : Nat) (a b : Nat → K) (c : Nat → Nat → K) (i j : Nat) :
    outerLoop n ro co a b c i j =
      if (ro ≤ i ∧ i < n + ro) ∧ co ≤ j ∧ j < n + co then c i j + a (i - ro) * b (j - co)
      else c i j := by
  unfold outerLoop
  suffices h : ∀ m, forLoop m (fun c i =>
      forLoop n (fun c j => upd2 c (i + ro) (j + co) (c (i + ro) (j + co) + a i * b j)) c) c i j =
      if (ro ≤ i ∧ i < m + ro) ∧ co ≤ j ∧ j < n + co then c i j + a (i - ro) * b (j - co)
      else c i j from h n
  intro m
  induction m with
  | zero => rw [forLoop_zero, if_neg (by omega)]
  | succ m ih =>
    rw [forLoop_succ, outer_inner_apply, ih]
    by_cases h : i = m + ro ∧ co ≤ j ∧ j < n + co
    · obtain ⟨h1, h2, h3⟩ := h
      subst h1
      rw [if_pos ⟨rfl, h2, h3⟩, if_neg (by omega), if_pos (by omega)]
      simp
    · rw [if_neg h]
      by_cases h1 : (ro ≤ i ∧ i < m + ro) ∧ co ≤ j ∧ j < n + co
      · rw [if_pos h1, if_pos (by omega)]
      · rw [if_neg h1, if_neg (by omega)]

theorem dispatch_eq {α : Type*} (f : Nat → α) (P : Nat) (p : Int) :
    dispatch f P p = if 0 ≤ p ∧ p ≤ (P : Int) then f p.toNat else f 0 := by
  induction P with
  | zero =>
    rw [dispatch]
    split
    · have : p = 0 := by omega
      simp [this]
    · rfl
  | succ P ih =>
    rw [dispatch]
    by_cases h : p = ((P + 1 : Nat) : Int)
    · rw [if_pos h, if_pos (by omega)]; congr; omega
    · rw [if_neg h, ih]
      by_cases h1 : 0 ≤ p ∧ p ≤ (P : Int)
      · rw [if_pos h1, if_pos (by omega)]
      · rw [if_neg h1, if_neg (by omega)]

end Basis
end Bembel
