import Mathlib.LinearAlgebra.Lagrange
import Mathlib.Tactic.FieldSimp
import Mathlib.Tactic.Ring
import Mathlib.Tactic.LinearCombination
import Verif.Model.H2Multipole
/-! # Newton form: divided differences and Aitken's scheme -/

namespace Bembel
namespace H2
open Finset
variable {K : Type} [Field K]

/-- Divided difference of order `j` at the points `a, …, a+j`. -/
def dd (x f : Nat → K) : Nat → Nat → K
  | 0, a => f a
  | j + 1, a => (dd x f j (a + 1) - dd x f j a) / (x (a + j + 1) - x a)

/-- Aitken's scheme. -/
def aitken (x f : Nat → K) (t : K) : Nat → Nat → K
  | 0, a => f a
  | j + 1, a => ((t - x a) * aitken x f t j (a + 1) - (t - x (a + j + 1)) * aitken x f t j a) / (x (a + j + 1) - x a)

theorem aitken_dd (x f : Nat → K) (n : Nat) (hx : ∀ i < n, ∀ j < n, x i = x j → i = j) (t : K) :
    ∀ j a, a + j + 1 < n →
      aitken x f t (j + 1) a - aitken x f t j a = dd x f (j + 1) a * ∏ i ∈ range (j + 1), (t - x (a + i)) ∧
      aitken x f t (j + 1) a - aitken x f t j (a + 1) =
        dd x f (j + 1) a * ∏ i ∈ range (j + 1), (t - x (a + 1 + i)) := by
  intro j
  induction j with
  | zero =>
    intro a ha
    have hD : x (a + 0 + 1) - x a ≠ 0 := by
      intro h
      have := hx _ (by omega) _ (by omega) (sub_eq_zero.mp h)
      omega
    simp only [aitken, dd, Nat.zero_add, prod_range_one, Nat.add_zero] at hD ⊢
    constructor <;> field_simp <;> ring
  | succ j ih =>
    intro a ha
    have hD : x (a + (j + 1) + 1) - x a ≠ 0 := by
      intro h
      have := hx _ (by omega) _ (by omega) (sub_eq_zero.mp h)
      omega
    have h1 := (ih (a + 1) (by omega)).1
    have h2 := (ih a (by omega)).2
    have h3 : aitken x f t (j + 1) (a + 1) - aitken x f t (j + 1) a =
        (x (a + (j + 1) + 1) - x a) * dd x f (j + 1 + 1) a * ∏ i ∈ range (j + 1), (t - x (a + 1 + i)) := by
      have e : (x (a + (j + 1) + 1) - x a) * dd x f (j + 1 + 1) a = dd x f (j + 1) (a + 1) - dd x f (j + 1) a := by
        rw [show dd x f (j + 1 + 1) a = (dd x f (j + 1) (a + 1) - dd x f (j + 1) a) / (x (a + (j + 1) + 1) - x a) from rfl]
        field_simp
      rw [e]
      linear_combination h1 - h2
    constructor
    · rw [prod_range_succ' _ (j + 1), show aitken x f t (j + 1 + 1) a = ((t - x a) * aitken x f t (j + 1) (a + 1)
        - (t - x (a + (j + 1) + 1)) * aitken x f t (j + 1) a) / (x (a + (j + 1) + 1) - x a) from rfl]
      simp only [Nat.add_zero]
      rw [show ∏ i ∈ range (j + 1), (t - x (a + (i + 1))) = ∏ i ∈ range (j + 1), (t - x (a + 1 + i)) from
        prod_congr rfl fun i _ => by rw [show a + (i + 1) = a + 1 + i by omega]]
      rw [div_sub' hD, div_eq_iff hD]
      linear_combination (t - x a) * h3
    · rw [prod_range_succ _ (j + 1), show aitken x f t (j + 1 + 1) a = ((t - x a) * aitken x f t (j + 1) (a + 1)
        - (t - x (a + (j + 1) + 1)) * aitken x f t (j + 1) a) / (x (a + (j + 1) + 1) - x a) from rfl]
      rw [show a + 1 + (j + 1) = a + (j + 1) + 1 by omega, div_sub' hD, div_eq_iff hD]
      linear_combination (t - x (a + (j + 1) + 1)) * h3

theorem aitken_interp (x f : Nat → K) (n : Nat) (hx : ∀ i < n, ∀ j < n, x i = x j → i = j) :
    ∀ j a, a + j < n → ∀ i ≤ j, aitken x f (x (a + i)) j a = f (a + i) := by
  intro j
  induction j with
  | zero =>
    intro a _ i hi
    obtain rfl : i = 0 := by omega
    rfl
  | succ j ih =>
    intro a ha i hi
    have hD : x (a + j + 1) - x a ≠ 0 := by
      intro h
      have := hx _ (by omega) _ (by omega) (sub_eq_zero.mp h)
      omega
    rw [aitken, div_eq_iff hD]
    rcases Nat.eq_zero_or_pos i with rfl | hi0
    · rw [ih a (by omega) 0 (by omega)]; simp; ring
    · have h1 := ih (a + 1) (by omega) (i - 1) (by omega)
      rw [show a + 1 + (i - 1) = a + i by omega] at h1
      rw [h1]
      rcases Nat.lt_or_ge i (j + 1) with h | h
      · rw [ih a (by omega) i (by omega)]; ring
      · obtain rfl : i = j + 1 := by omega
        rw [show a + (j + 1) = a + j + 1 by omega]; ring

/-- Newton form. -/
theorem newton_aitken (x f : Nat → K) (n : Nat) (hx : ∀ i < n, ∀ j < n, x i = x j → i = j) (t : K) :
    ∀ m < n, ∑ k ∈ range (m + 1), dd x f k 0 * ∏ i ∈ range k, (t - x i) = aitken x f t m 0 := by
  intro m
  induction m with
  | zero => intro _; simp [dd, aitken]
  | succ m ih =>
    intro hm
    rw [sum_range_succ, ih (by omega)]
    have h := (aitken_dd x f n hx t m 0 (by omega)).1
    simp only [Nat.zero_add] at h
    rw [← h]; ring

/-! ## The loops -/

/-- One pass. -/
theorem pass_eq (x f : Nat → K) (n i j : Nat) (hj : 0 < j) (M : Nat → Nat → K)
    (hM : ∀ k < n, M k i = if k < j then dd x f k 0 else dd x f (j - 1) (k - (j - 1))) :
    let M' := (List.range' j (n - j)).reverse.foldl (fun M k =>
        assign M k i ((M k i - M (k - 1) i) / (x k - x (k - j)))) M
    (∀ k < n, M' k i = if k < j + 1 then dd x f k 0 else dd x f j (k - j)) ∧ (∀ k b, b ≠ i → M' k b = M k b) := by
  -- entries with index `≥ n - s` are new after `s` steps
  have key : ∀ s ≤ n - j, ∀ M' , M' = ((List.range' (n - s) s).reverse.foldl (fun M k =>
        assign M k i ((M k i - M (k - 1) i) / (x k - x (k - j)))) M) →
      (∀ k < n, M' k i = if n - s ≤ k then dd x f j (k - j) else M k i) ∧ (∀ k b, b ≠ i → M' k b = M k b) := by
    intro s
    induction s with
    | zero =>
      intro _ M' h
      subst h
      refine ⟨fun k hk => ?_, fun _ _ _ => by simp⟩
      rw [if_neg (by omega)]
    | succ s ih =>
      intro hs M' h
      have hr : List.range' (n - (s + 1)) (s + 1) = (n - (s + 1)) :: List.range' (n - s) s := by
        rw [List.range'_succ, show n - (s + 1) + 1 = n - s by omega]
      rw [hr, List.reverse_cons, List.foldl_append] at h
      obtain ⟨h1, h2⟩ := ih (by omega) _ rfl
      set M1 := (List.range' (n - s) s).reverse.foldl (fun M k =>
        assign M k i ((M k i - M (k - 1) i) / (x k - x (k - j)))) M
      simp only [List.foldl_cons, List.foldl_nil] at h
      subst h
      refine ⟨fun k hk => ?_, fun k b hb => ?_⟩
      · simp only [assign]
        by_cases hk' : k = n - (s + 1)
        · subst hk'
          rw [if_pos (by simp), if_pos (le_refl _), h1 _ hk, h1 _ (by omega), if_neg (by omega), if_neg (by omega),
            hM _ hk, hM _ (by omega), if_neg (by omega)]
          obtain ⟨j, rfl⟩ : ∃ j', j = j' + 1 := ⟨j - 1, by omega⟩
          simp only [Nat.add_sub_cancel]
          rw [dd]
          have e1 : n - (s + 1) - j = n - (s + 1) - (j + 1) + 1 := by omega
          have e2 : n - (s + 1) = n - (s + 1) - (j + 1) + j + 1 := by omega
          rw [← e2, ← e1]
          congr 2
          by_cases hl : n - (s + 1) - 1 < j + 1
          · rw [if_pos hl, show n - (s + 1) - (j + 1) = 0 by omega, show n - (s + 1) - 1 = j by omega]
          · rw [if_neg hl, show n - (s + 1) - 1 - j = n - (s + 1) - (j + 1) by omega]
        · rw [if_neg (by tauto), h1 k hk]
          by_cases h3 : n - s ≤ k
          · rw [if_pos h3, if_pos (by omega)]
          · rw [if_neg h3, if_neg (by omega)]
      · simp only [assign]
        rw [if_neg (by tauto), h2 k b hb]
  intro M'
  by_cases hn : j ≤ n
  · have e : List.range' j (n - j) = List.range' (n - (n - j)) (n - j) := by rw [show n - (n - j) = j by omega]
    obtain ⟨h1, h2⟩ := key (n - j) (le_refl _) M' (by rw [← e])
    refine ⟨fun k hk => ?_, h2⟩
    rw [h1 k hk, show n - (n - j) = j by omega]
    by_cases h3 : j ≤ k
    · rw [if_pos h3]
      by_cases h4 : k < j + 1
      · rw [if_pos h4, show k = j by omega, Nat.sub_self]
      · rw [if_neg h4]
    · rw [if_neg h3, if_pos (by omega), hM k hk, if_pos (by omega)]
  · have e : M' = M := by simp only [M', show n - j = 0 by omega, List.range'_zero, List.reverse_nil, List.foldl_nil]
    rw [e]
    refine ⟨fun k hk => ?_, fun _ _ _ => rfl⟩
    rw [hM k hk, if_pos (by omega), if_pos (by omega)]

theorem passes_eq (x f : Nat → K) (n i : Nat) (M : Nat → Nat → K) (hM : ∀ k < n, M k i = f k) :
    ∀ s ≤ n - 1,
    let M' := (List.range' 1 s).foldl (fun M j => (List.range' j (n - j)).reverse.foldl (fun M k =>
        assign M k i ((M k i - M (k - 1) i) / (x k - x (k - j)))) M) M
    (∀ k < n, M' k i = if k < s + 1 then dd x f k 0 else dd x f s (k - s)) ∧ (∀ k b, b ≠ i → M' k b = M k b) := by
  intro s
  induction s with
  | zero =>
    intro _ M'
    refine ⟨fun k hk => ?_, fun _ _ _ => by simp [M']⟩
    have : M' = M := by simp [M']
    rw [this, hM k hk]
    by_cases h : k < 0 + 1
    · rw [if_pos h, show k = 0 by omega]; rfl
    · rw [if_neg h]; rfl
  | succ s ih =>
    intro hs M'
    obtain ⟨h1, h2⟩ := ih (by omega)
    have e : M' = (List.range' (s + 1) (n - (s + 1))).reverse.foldl (fun M k =>
        assign M k i ((M k i - M (k - 1) i) / (x k - x (k - (s + 1))))) ((List.range' 1 s).foldl (fun M j =>
          (List.range' j (n - j)).reverse.foldl (fun M k =>
            assign M k i ((M k i - M (k - 1) i) / (x k - x (k - j)))) M) M) := by
      simp only [M']
      rw [List.range'_1_concat, List.foldl_append, List.foldl_cons, List.foldl_nil, Nat.add_comm 1 s]
    have h3 := pass_eq x f n i (s + 1) (by omega) ((List.range' 1 s).foldl (fun M j =>
          (List.range' j (n - j)).reverse.foldl (fun M k =>
            assign M k i ((M k i - M (k - 1) i) / (x k - x (k - j)))) M) M) (by
      intro k hk
      rw [h1 k hk, Nat.add_sub_cancel])
    simp only [← e] at h3
    exact ⟨h3.1, fun k b hb => by rw [h3.2 k b hb, h2 k b hb]⟩

theorem lagrangeLoop_eq (x : Nat → K) (n : Nat) (M : Nat → Nat → K) :
    ∀ s ≤ n,
    let M' := (List.range s).foldl (fun M i => (List.range' 1 (n - 1)).foldl (fun M j =>
      (List.range' j (n - j)).reverse.foldl (fun M k =>
        assign M k i ((M k i - M (k - 1) i) / (x k - x (k - j)))) M) M) M
    ∀ k < n, ∀ i < n, M' k i = if i < s then dd x (fun k => M k i) k 0 else M k i := by
  intro s
  induction s with
  | zero => intro _ M' k hk i hi; simp [M']
  | succ s ih =>
    intro hs M' k hk i hi
    have h1 := ih (by omega)
    simp only [M']
    rw [List.range_succ, List.foldl_append, List.foldl_cons, List.foldl_nil]
    set M1 := (List.range s).foldl (fun M i => (List.range' 1 (n - 1)).foldl (fun M j =>
      (List.range' j (n - j)).reverse.foldl (fun M k =>
        assign M k i ((M k i - M (k - 1) i) / (x k - x (k - j)))) M) M) M
    obtain ⟨h2, h3⟩ := passes_eq x (fun k => M k s) n s M1 (by
      intro k hk
      rw [h1 k hk s (by omega), if_neg (by omega)]) (n - 1) (le_refl _)
    by_cases his : i = s
    · subst his
      rw [h2 k hk, if_pos (by omega), if_pos (by omega)]
    · rw [h3 k i his, h1 k hk i hi]
      by_cases h : i < s
      · rw [if_pos h, if_pos (by omega)]
      · rw [if_neg h, if_neg (by omega)]

theorem computeLagrange_eq (pts : Nat → Nat → K) (n k i : Nat) (hk : k < n) (hi : i < n) :
    (computeLagrangePolynomials pts n).at' k i = dd (pts n) (fun k => if k = i then 1 else 0) k 0 := by
  have := lagrangeLoop_eq (pts n) n (fun k i => if k = i then 1 else 0) n (le_refl _) k hk i hi
  rw [if_pos hi] at this
  exact this

/-- Horner's scheme. -/
theorem horner_eq (x L : Nat → K) (t : K) (m : Nat) : ∀ s ≤ m,
    (List.range' (m - s) s).reverse.foldl (fun r i => r * (t - x i) + L i) (L m) * ∏ i ∈ range (m - s), (t - x i) =
      ∑ k ∈ Ico (m - s) (m + 1), L k * ∏ i ∈ range k, (t - x i) := by
  intro s
  induction s with
  | zero => intro _; simp
  | succ s ih =>
    intro hs
    have hr : List.range' (m - (s + 1)) (s + 1) = (m - (s + 1)) :: List.range' (m - s) s := by
      rw [List.range'_succ, show m - (s + 1) + 1 = m - s by omega]
    rw [hr, List.reverse_cons, List.foldl_append, List.foldl_cons, List.foldl_nil,
      Finset.sum_eq_sum_Ico_succ_bot (by omega), show m - (s + 1) + 1 = m - s by omega, ← ih (by omega)]
    rw [show m - s = m - (s + 1) + 1 by omega, prod_range_succ]
    ring

theorem evaluate_eq (pts : Nat → Nat → K) (n : Nat) (hn : 0 < n) (L : Nat → K) (t : K) :
    evaluatePolynomial pts n L t = ∑ k ∈ range n, L k * ∏ i ∈ range k, (t - pts n i) := by
  have h := horner_eq (pts n) L t (n - 1) (n - 1) (le_refl _)
  rw [Nat.sub_self, ← List.range_eq_range', prod_range_zero, mul_one, show n - 1 + 1 = n by omega,
    ← Finset.range_eq_Ico] at h
  exact h

/-- Evaluation of a computed column. -/
theorem evaluate_lagrange_aitken (pts : Nat → Nat → K) (n : Nat) (hx : ∀ i < n, ∀ j < n, pts n i = pts n j → i = j)
    (i : Nat) (hi : i < n) (t : K) :
    evaluatePolynomial pts n (fun k => (computeLagrangePolynomials pts n).at' k i) t =
      aitken (pts n) (fun k => if k = i then 1 else 0) t (n - 1) 0 := by
  rw [evaluate_eq pts n (by omega), ← newton_aitken (pts n) _ n hx t (n - 1) (by omega), show n - 1 + 1 = n by omega]
  exact sum_congr rfl fun k hk => by rw [computeLagrange_eq pts n k i (mem_range.mp hk) hi]

/-- Newton form as a polynomial. -/
noncomputable def newtonPoly (x c : Nat → K) (n : Nat) : Polynomial K :=
  ∑ k ∈ range n, Polynomial.C (c k) * ∏ i ∈ range k, (Polynomial.X - Polynomial.C (x i))

theorem newtonPoly_eval (x c : Nat → K) (n : Nat) (t : K) :
    (newtonPoly x c n).eval t = ∑ k ∈ range n, c k * ∏ i ∈ range k, (t - x i) := by
  simp [newtonPoly, Polynomial.eval_finsetSum, Polynomial.eval_prod]

theorem newtonPoly_degree (x c : Nat → K) (n : Nat) : (newtonPoly x c n).degree < n := by
  refine lt_of_le_of_lt (Polynomial.degree_sum_le _ _) ?_
  rw [Finset.sup_lt_iff (by exact WithBot.bot_lt_coe n)]
  intro k hk
  refine lt_of_le_of_lt (Polynomial.degree_mul_le _ _) ?_
  rw [Polynomial.degree_prod]
  simp only [Polynomial.degree_X_sub_C, sum_const, card_range, nsmul_eq_mul, mul_one]
  rcases eq_or_ne (c k) 0 with h | h
  · simp [h]
  · rw [Polynomial.degree_C h, zero_add]
    exact_mod_cast mem_range.mp hk

end H2
end Bembel
