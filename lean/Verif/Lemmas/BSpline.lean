import Verif.Lemmas.Knots
import Mathlib.Data.List.Perm.Basic
import Mathlib.Data.Nat.Factorial.Basic
import Mathlib.Data.Nat.Choose.Basic
import Mathlib.Tactic.Positivity
import Mathlib.Tactic.LinearCombination
/-!
# Bernstein coefficients of B-splines on a knot span
-/

open Finset

namespace Bembel.Spl
open Spec

variable {K : Type} [Field K] [LinearOrder K]

/-- Polar form of the pieces of the B-splines on the span `l`. -/
def polar (t : Nat → K) (l : Nat) : List K → Nat → K
  | [], i => if i = l then 1 else 0
  | u :: us, i => (u - t i) / (t (i + us.length + 1) - t i) * polar t l us i +
      (t (i + us.length + 2) - u) / (t (i + us.length + 2) - t (i + 1)) * polar t l us (i + 1)

theorem polar_support (t : Nat → K) (l : Nat) : ∀ (us : List K) (i : Nat), l < i ∨ i + us.length < l → polar t l us i = 0
  | [], i, h => by simp [polar]; simp at h; omega
  | u :: us, i, h => by
    rw [polar, polar_support t l us i (by simp at h; omega), polar_support t l us (i + 1) (by simp at h; omega)]; simp

theorem bspline_eq_polar (t : Nat → K) (n : Nat) (x : K) (l : Nat) (hspan : ∀ i, inSpan t n i x ↔ i = l) :
    ∀ k i, bspline t n x k i = polar t l (List.replicate k x) i
  | 0, i => by simp [bspline, polar, hspan]
  | k + 1, i => by
    rw [bspline, List.replicate_succ, polar, bspline_eq_polar t n x l hspan k, bspline_eq_polar t n x l hspan k]
    simp

variable [IsStrictOrderedRing K]

theorem polar_swap (t : Nat → K) (ht : Monotone t) (l : Nat) (hl : t l < t (l + 1)) (u v : K) (us : List K) (i : Nat) :
    polar t l (u :: v :: us) i = polar t l (v :: u :: us) i := by
  simp only [polar, List.length_cons]
  rw [show i + 1 + us.length + 1 = i + (us.length + 1) + 1 by ring, show i + 1 + us.length + 2 = i + (us.length + 1) + 2 by ring,
    show i + us.length + 2 = i + (us.length + 1) + 1 by ring]
  set k := us.length with hk
  have mid : ∀ (A B : K),
      ((A - t i) / (t (i + (k + 1) + 1) - t i) * ((t (i + (k + 1) + 1) - B) / (t (i + (k + 1) + 1) - t (i + 1))) +
        (t (i + (k + 1) + 2) - A) / (t (i + (k + 1) + 2) - t (i + 1)) * ((B - t (i + 1)) / (t (i + (k + 1) + 1) - t (i + 1)))) *
        polar t l us (i + 1) =
      ((B - t i) / (t (i + (k + 1) + 1) - t i) * ((t (i + (k + 1) + 1) - A) / (t (i + (k + 1) + 1) - t (i + 1))) +
        (t (i + (k + 1) + 2) - B) / (t (i + (k + 1) + 2) - t (i + 1)) * ((A - t (i + 1)) / (t (i + (k + 1) + 1) - t (i + 1)))) *
        polar t l us (i + 1) := by
    intro A B
    by_cases h : l < i + 1 ∨ i + 1 + us.length < l
    · rw [polar_support t l us (i + 1) h]; ring
    · have h1 : t (i + 1) < t (i + (k + 1) + 1) :=
        lt_of_le_of_lt (ht (by omega)) (lt_of_lt_of_le hl (ht (by omega)))
      have h2 : t i < t (i + (k + 1) + 1) := lt_of_le_of_lt (ht (by omega)) h1
      have h3 : t (i + 1) < t (i + (k + 1) + 2) := lt_of_lt_of_le h1 (ht (by omega))
      have e1 := (sub_pos.2 h1).ne'
      have e2 := (sub_pos.2 h2).ne'
      have e3 := (sub_pos.2 h3).ne'
      congr 1
      field_simp
      ring
  have m := mid u v
  generalize polar t l us i = a at *
  generalize polar t l us (i + 1) = b at *
  generalize polar t l us (i + 1 + 1) = c at *
  have e : i + 1 + 1 + k = i + 1 + k + 1 := by ring
  linear_combination m

theorem polar_perm (t : Nat → K) (ht : Monotone t) (l : Nat) (hl : t l < t (l + 1)) {us vs : List K} (h : us.Perm vs) :
    ∀ i, polar t l us i = polar t l vs i := by
  induction h with
  | nil => intro i; rfl
  | cons x h ih => intro i; rw [polar, polar, ih, ih, h.length_eq]
  | swap x y l' => intro i; exact polar_swap t ht l hl _ _ _ i
  | trans _ _ ih1 ih2 => intro i; rw [ih1, ih2]

/-- Bernstein coefficient `j` of degree `k` on the span. -/
def bezier (t : Nat → K) (l k i j : Nat) : K :=
  polar t l (List.replicate (k - j) (t l) ++ List.replicate j (t (l + 1))) i

theorem bern_succ (k j : Nat) (x : K) : bern (k + 1) (j + 1) x = (1 - x) * bern k (j + 1) x + x * bern k j x := by
  unfold bern
  rcases Nat.lt_trichotomy j k with h | rfl | h
  · rw [Nat.choose_succ_succ, show k + 1 - (j + 1) = k - j by omega, show k - j = k - (j + 1) + 1 by omega]
    push_cast
    ring
  · simp; ring
  · simp [Nat.choose_eq_zero_of_lt (show k < j by omega), Nat.choose_eq_zero_of_lt (show k + 1 < j + 1 by omega),
      Nat.choose_eq_zero_of_lt (show k < j + 1 by omega)]

theorem bern_zero_succ (k : Nat) (x : K) : bern (k + 1) 0 x = (1 - x) * bern k 0 x := by
  unfold bern; simp; ring

theorem bern_blend (k : Nat) (g : Nat → K) (x : K) :
    ∑ j ∈ range (k + 1), bern k j x * ((1 - x) * g j + x * g (j + 1)) = ∑ j ∈ range (k + 2), bern (k + 1) j x * g j := by
  rw [sum_range_succ' _ (k + 1)]
  simp only [bern_succ, bern_zero_succ]
  have : ∑ j ∈ range (k + 1), ((1 - x) * bern k (j + 1) x + x * bern k j x) * g (j + 1) =
      ∑ j ∈ range (k + 1), (1 - x) * (bern k (j + 1) x * g (j + 1)) + ∑ j ∈ range (k + 1), x * (bern k j x * g (j + 1)) := by
    rw [← sum_add_distrib]
    exact sum_congr rfl fun j _ => by ring
  rw [this]
  have h2 : ∑ j ∈ range (k + 1), bern k j x * ((1 - x) * g j + x * g (j + 1)) =
      ∑ j ∈ range (k + 1), (1 - x) * (bern k j x * g j) + ∑ j ∈ range (k + 1), x * (bern k j x * g (j + 1)) := by
    rw [← sum_add_distrib]
    exact sum_congr rfl fun j _ => by ring
  rw [h2, sum_range_succ' (fun j => (1 - x) * (bern k j x * g j)) k, sum_range_succ (fun j => (1 - x) * (bern k (j + 1) x * g (j + 1))) k]
  have h3 : bern k (k + 1) x = 0 := by unfold bern; simp
  rw [h3]; ring

/-- A B-spline on a knot span in Bernstein form. -/
theorem polar_bern (t : Nat → K) (ht : Monotone t) (l : Nat) (hl : t l < t (l + 1)) (x : K) : ∀ k i,
    polar t l (List.replicate k ((1 - x) * t l + x * t (l + 1))) i = ∑ j ∈ range (k + 1), bern k j x * bezier t l k i j
  | 0, i => by simp [bern, bezier]
  | k + 1, i => by
    rw [List.replicate_succ, polar, polar_bern t ht l hl x k i, polar_bern t ht l hl x k (i + 1), ← bern_blend, mul_sum, mul_sum,
      ← sum_add_distrib]
    refine sum_congr rfl fun j hj => ?_
    have hj := mem_range.1 hj
    have e1 : bezier t l (k + 1) i j =
        (t l - t i) / (t (i + k + 1) - t i) * bezier t l k i j +
        (t (i + k + 2) - t l) / (t (i + k + 2) - t (i + 1)) * bezier t l k (i + 1) j := by
      unfold bezier
      rw [show k + 1 - j = (k - j) + 1 by omega, List.replicate_succ, List.cons_append, polar]
      simp only [List.length_append, List.length_replicate]
      rw [show i + (k - j + j) = i + k by omega]
    have e2 : bezier t l (k + 1) i (j + 1) =
        (t (l + 1) - t i) / (t (i + k + 1) - t i) * bezier t l k i j +
        (t (i + k + 2) - t (l + 1)) / (t (i + k + 2) - t (i + 1)) * bezier t l k (i + 1) j := by
      unfold bezier
      rw [show k + 1 - (j + 1) = k - j by omega, List.replicate_succ,
        polar_perm t ht l hl (List.perm_middle (l₁ := List.replicate (k - j) (t l)) (a := t (l + 1)) (l₂ := List.replicate j (t (l + 1)))), polar]
      simp only [List.length_append, List.length_replicate]
      rw [show i + (k - j + j) = i + k by omega]
    rw [e1, e2, List.length_replicate]
    by_cases h1 : t (i + k + 1) - t i = 0
    · by_cases h2 : t (i + k + 2) - t (i + 1) = 0
      · simp [h1, h2]
      · simp only [h1, div_zero, zero_mul, zero_add]; field_simp; ring
    · by_cases h2 : t (i + k + 2) - t (i + 1) = 0
      · simp only [h2, div_zero, zero_mul, add_zero]; field_simp; ring
      · field_simp; ring

/-- A value that is zero or at least `c`. -/
theorem gap_add {a b c : K} (hc : 0 ≤ c) (ha : a = 0 ∨ c ≤ a) (hb : b = 0 ∨ c ≤ b) : a + b = 0 ∨ c ≤ a + b := by
  rcases ha with rfl | ha <;> rcases hb with rfl | hb
  · left; simp
  · right; simpa using hb
  · right; simpa using ha
  · right; linarith

theorem gap_mul {a b c d : K} (hc : 0 ≤ c) (hd : 0 ≤ d) (ha : a = 0 ∨ c ≤ a) (hb : b = 0 ∨ d ≤ b) : a * b = 0 ∨ c * d ≤ a * b := by
  rcases ha with rfl | ha
  · left; simp
  · rcases hb with rfl | hb
    · left; simp
    · right; exact mul_le_mul ha hb hd (hc.trans ha)

/-- If the knots are multiples of `h` and neighbouring knots differ by at most `h`, the values of the polar form at knots are zero or at
least `1 / k!`. -/
theorem polar_gap (t : Nat → K) (τ : Nat → Nat) (h : K) (hh : 0 < h) (hτ : ∀ i, t i = τ i * h) (mono : Monotone τ)
    (step : ∀ i, τ (i + 1) ≤ τ i + 1) (l : Nat) (hl : τ l < τ (l + 1)) :
    ∀ (us : List K) (i : Nat), (∀ u ∈ us, u = t l ∨ u = t (l + 1)) →
      polar t l us i = 0 ∨ 1 / (us.length.factorial : K) ≤ polar t l us i
  | [], i, _ => by simp only [polar]; split <;> simp
  | u :: us, i, hu => by
    have hsteps : ∀ i k, τ (i + k) ≤ τ i + k := by
      intro i k
      induction k with
      | zero => simp
      | succ k ih => have := step (i + k); rw [← Nat.add_assoc]; omega
    obtain ⟨m, hm, hm1, hm2⟩ : ∃ m : Nat, u = m * h ∧ τ l ≤ m ∧ m ≤ τ (l + 1) := by
      rcases hu u (by simp) with rfl | rfl
      · exact ⟨τ l, hτ l, le_rfl, hl.le⟩
      · exact ⟨τ (l + 1), hτ _, hl.le, le_rfl⟩
    have frac : ∀ (a b m k : Nat), a ≤ m → a < b → b ≤ a + k → 0 < k →
        ((m : K) * h - a * h) / (b * h - a * h) = 0 ∨ 1 / (k : K) ≤ ((m : K) * h - a * h) / (b * h - a * h) := by
      intro a b m k h1 h2 h3 h4
      rw [← sub_mul, ← sub_mul, mul_div_mul_right _ _ hh.ne']
      rcases Nat.eq_or_lt_of_le h1 with rfl | h1
      · left; simp
      · right
        have q1 : (a : K) + 1 ≤ m := by exact_mod_cast h1
        have q2 : (a : K) < b := by exact_mod_cast h2
        have q3 : (b : K) ≤ a + k := by exact_mod_cast h3
        have q4 : (0 : K) < k := by exact_mod_cast h4
        rw [div_le_div_iff₀ q4 (by linarith)]
        nlinarith
    have ih1 := polar_gap t τ h hh hτ mono step l hl us i (fun u hu' => hu u (by simp [hu']))
    have ih2 := polar_gap t τ h hh hτ mono step l hl us (i + 1) (fun u hu' => hu u (by simp [hu']))
    have hfac : 1 / (((u :: us).length.factorial : Nat) : K) = 1 / ((us.length + 1 : Nat) : K) * (1 / (us.length.factorial : K)) := by
      rw [List.length_cons, Nat.factorial_succ]
      push_cast
      have : (us.length.factorial : K) ≠ 0 := by exact_mod_cast us.length.factorial_ne_zero
      field_simp
    rw [polar, hfac]
    refine gap_add (by positivity) ?_ ?_
    · by_cases hs : l < i ∨ i + us.length < l
      · left; rw [polar_support t l us i hs, mul_zero]
      · refine gap_mul (by positivity) (by positivity) ?_ ih1
        have g1 : τ i ≤ τ l := mono (by omega)
        have g2 : τ (l + 1) ≤ τ (i + us.length + 1) := mono (by omega)
        have g3 := hsteps i (us.length + 1)
        rw [hm, hτ i, hτ (i + us.length + 1)]
        exact frac _ _ _ _ (by omega) (by omega) (by rw [Nat.add_assoc]; omega) (by omega)
    · by_cases hs : l < i + 1 ∨ i + 1 + us.length < l
      · left; rw [polar_support t l us (i + 1) hs, mul_zero]
      · refine gap_mul (by positivity) (by positivity) ?_ ih2
        have g1 : τ (i + 1) ≤ τ l := mono (by omega)
        have g2 : τ (l + 1) ≤ τ (i + us.length + 2) := mono (by omega)
        have g3 := hsteps (i + 1) (us.length + 1)
        rw [show i + 1 + (us.length + 1) = i + us.length + 2 by ring] at g3
        rw [hm, hτ (i + 1), hτ (i + us.length + 2)]
        rw [← sub_mul, ← sub_mul, mul_div_mul_right _ _ hh.ne']
        rcases Nat.eq_or_lt_of_le (show m ≤ τ (i + us.length + 2) by omega) with h1 | h1
        · left; rw [h1]; simp
        · right
          have q1 : (m : K) + 1 ≤ τ (i + us.length + 2) := by exact_mod_cast h1
          have q2 : (τ (i + 1) : K) < τ (i + us.length + 2) := by exact_mod_cast (show τ (i + 1) < _ by omega)
          have q3 : (τ (i + us.length + 2) : K) ≤ τ (i + 1) + (us.length + 1 : Nat) := by exact_mod_cast g3
          have q4 : (0 : K) < (us.length + 1 : Nat) := by positivity
          rw [div_le_div_iff₀ q4 (by linarith)]
          nlinarith

theorem bezier_gap (t : Nat → K) (τ : Nat → Nat) (h : K) (hh : 0 < h) (hτ : ∀ i, t i = τ i * h) (mono : Monotone τ)
    (step : ∀ i, τ (i + 1) ≤ τ i + 1) (l : Nat) (hl : τ l < τ (l + 1)) (k i j : Nat) (hj : j ≤ k) :
    bezier t l k i j = 0 ∨ 1 / (k.factorial : K) ≤ bezier t l k i j := by
  have := polar_gap t τ h hh hτ mono step l hl (List.replicate (k - j) (t l) ++ List.replicate j (t (l + 1))) i (by
    intro u hu
    rcases List.mem_append.1 hu with hu | hu
    · exact Or.inl (List.eq_of_mem_replicate hu)
    · exact Or.inr (List.eq_of_mem_replicate hu))
  rwa [List.length_append, List.length_replicate, List.length_replicate, show k - j + j = k by omega] at this

/-- Degree elevation. -/
theorem bern_elevate (k : Nat) (g : Nat → K) (x : K) : ∑ j ∈ range (k + 1), bern k j x * g j =
    ∑ j ∈ range (k + 2), bern (k + 1) j x * (((k + 1 - j : Nat) : K) / (k + 1) * g j + (j : K) / (k + 1) * g (j - 1)) := by
  have hk : ((k : K) + 1) ≠ 0 := by positivity
  have e1 : ∀ j, j ≤ k → ((k + 1 - j : Nat) : K) / (k + 1) * bern (k + 1) j x = (1 - x) * bern k j x := by
    intro j hj
    unfold bern
    have := Nat.add_one_mul_choose_eq k j
    have c := Nat.choose_mul_succ_eq k j
    have c' : ((k.choose j : Nat) : K) * (k + 1) = ((k + 1).choose j : Nat) * ((k + 1 - j : Nat) : K) := by exact_mod_cast c
    rw [show k + 1 - j = k - j + 1 by omega] at *
    rw [pow_succ]
    field_simp
    linear_combination (-1 : K) * c' * (1 - x) ^ (k - j) * x ^ j * (1 - x)
  have e2 : ∀ j, j ≤ k → ((j + 1 : Nat) : K) / (k + 1) * bern (k + 1) (j + 1) x = x * bern k j x := by
    intro j hj
    unfold bern
    have c := Nat.add_one_mul_choose_eq k j
    have c' : ((k : K) + 1) * (k.choose j : Nat) = ((k + 1).choose (j + 1) : Nat) * ((j + 1 : Nat) : K) := by exact_mod_cast c
    rw [show k + 1 - (j + 1) = k - j by omega, pow_succ]
    field_simp
    linear_combination (-1 : K) * c' * (1 - x) ^ (k - j) * x ^ j * x
  have s1 : ∑ j ∈ range (k + 2), bern (k + 1) j x * (((k + 1 - j : Nat) : K) / (k + 1) * g j) =
      ∑ j ∈ range (k + 1), (1 - x) * bern k j x * g j := by
    rw [sum_range_succ]
    simp only [Nat.sub_self, Nat.cast_zero, zero_div, zero_mul, mul_zero, add_zero]
    exact sum_congr rfl fun j hj => by rw [← e1 j (by have := mem_range.1 hj; omega)]; ring
  have s2 : ∑ j ∈ range (k + 2), bern (k + 1) j x * ((j : K) / (k + 1) * g (j - 1)) =
      ∑ j ∈ range (k + 1), x * bern k j x * g j := by
    rw [sum_range_succ']
    simp only [Nat.cast_zero, zero_div, zero_mul, mul_zero, add_zero]
    exact sum_congr rfl fun j hj => by rw [← e2 j (by have := mem_range.1 hj; omega)]; simp; ring
  simp only [mul_add, sum_add_distrib]
  rw [s1, s2, ← sum_add_distrib]
  exact sum_congr rfl fun j _ => by ring

end Bembel.Spl
