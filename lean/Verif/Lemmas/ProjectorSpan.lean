import Verif.Lemmas.BSpline
import Verif.Lemmas.Unisolvent
import Verif.Spec.Projector
import Verif.Props.Patch
import Mathlib.Tactic.IntervalCases
/-!
# Uniform B-splines on one element of a patch in Bernstein form
-/

open Finset

namespace Bembel.Projector
open Spec Spl Props

/-- Integer numerators of the knots. -/
def tau (q n r i : Nat) : Nat := if i < q then 0 else if i < q + (n - 1) * r then (i - q) / r + 1 else n

theorem uniformKnot_tau (q n r i : Nat) (hn : 0 < n) : (uniformKnot q n r i : ℝ) = tau q n r i * (1 / (n : ℝ)) := by
  have hn' : (n : ℝ) ≠ 0 := by positivity
  unfold uniformKnot tau
  split_ifs
  · simp
  · push_cast; ring
  · field_simp

theorem tau_le (q n r i : Nat) (hn : 0 < n) (hr : 1 ≤ r) : tau q n r i ≤ n := by
  unfold tau
  split_ifs with h1 h2
  · omega
  · have : (i - q) / r < n - 1 := by rw [Nat.div_lt_iff_lt_mul (by omega)]; omega
    omega
  · exact le_rfl

theorem tau_mono (q n r : Nat) (hn : 0 < n) (hr : 1 ≤ r) : Monotone (tau q n r) := by
  refine monotone_nat_of_le_succ fun i => ?_
  have h0 := tau_le q n r i hn hr
  unfold tau at h0 ⊢
  have := Nat.div_le_div_right (c := r) (show i - q ≤ i + 1 - q by omega)
  generalize (i - q) / r = u at *
  generalize (i + 1 - q) / r = v at *
  split_ifs <;> split_ifs at h0 <;> omega

theorem tau_step (q n r : Nat) (hn : 0 < n) (hr : 1 ≤ r) (i : Nat) : tau q n r (i + 1) ≤ tau q n r i + 1 := by
  unfold tau
  by_cases h1 : i + 1 < q
  · simp [h1]
  by_cases h2 : i < q
  · rw [if_neg h1, if_pos h2]
    split_ifs with h3
    · rw [show i + 1 - q = 0 by omega]; simp
    · have : (n - 1) * r = 0 := by omega
      rcases Nat.mul_eq_zero.1 this with h | h <;> omega
  · rw [if_neg h1, if_neg h2]
    have e : (i + 1 - q) / r ≤ (i - q) / r + 1 := by
      rw [show i + 1 - q = i - q + 1 by omega]
      have : (i - q + 1) / r ≤ (i - q + r) / r := Nat.div_le_div_right (by omega)
      rwa [Nat.add_div_right _ (by omega)] at this
    split_ifs with h3 h4 h5
    · omega
    · omega
    · have : n - 2 ≤ (i - q) / r := by
        rw [Nat.le_div_iff_mul_le (by omega)]
        rcases Nat.lt_or_ge n 2 with h | h
        · simp [show n - 2 = 0 by omega]
        · have : (n - 1) * r = (n - 2) * r + r := by rw [show n - 1 = n - 2 + 1 by omega]; ring
          have : (n - 2) * r + r ≤ i - q + 1 := by omega
          omega
      omega
    · omega

theorem tau_span (q n r X : Nat) (hq : 1 ≤ q) (hr : 1 ≤ r) (hX : X < n) : tau q n r (q - 1 + r * X) = X ∧ tau q n r (q - 1 + r * X + 1) = X + 1 := by
  constructor
  · unfold tau
    rcases Nat.eq_zero_or_pos X with rfl | h
    · simp; omega
    · have e : r * X = r * (X - 1) + r := by
        conv_lhs => rw [show X = X - 1 + 1 by omega]
        ring
      have h2 : r * (X - 1) + r ≤ (n - 1) * r := by rw [← e, Nat.mul_comm]; exact Nat.mul_le_mul_right _ (by omega)
      rw [if_neg (by omega), if_pos (by omega), show q - 1 + r * X - q = (r - 1) + r * (X - 1) by omega, Nat.add_mul_div_left _ _ (by omega),
        Nat.div_eq_of_lt (by omega)]
      omega
  · unfold tau
    rw [if_neg (by omega), show q - 1 + r * X + 1 = q + r * X by omega]
    rcases Nat.lt_or_ge X (n - 1) with h | h
    · have : r * X < (n - 1) * r := by rw [Nat.mul_comm]; exact Nat.mul_lt_mul_of_pos_right h (by omega)
      rw [if_pos (by omega), show q + r * X - q = r * X by omega, Nat.mul_div_cancel_left _ (by omega)]
    · rw [if_neg]
      · omega
      · have : (n - 1) * r ≤ r * X := by rw [Nat.mul_comm r]; exact Nat.mul_le_mul_right _ h
        omega

theorem uniformKnot_mono (q n r : Nat) (hn : 0 < n) (hr : 1 ≤ r) : Monotone (uniformKnot (K := ℝ) q n r) := by
  intro i j hij
  rw [uniformKnot_tau _ _ _ _ hn, uniformKnot_tau _ _ _ _ hn]
  have : (tau q n r i : ℝ) ≤ tau q n r j := by exact_mod_cast tau_mono q n r hn hr hij
  exact mul_le_mul_of_nonneg_right this (by positivity)

theorem knot_span (q n r X : Nat) (hq : 1 ≤ q) (hr : 1 ≤ r) (hX : X < n) :
    (uniformKnot q n r (q - 1 + r * X) : ℝ) = X / n ∧ (uniformKnot q n r (q - 1 + r * X + 1) : ℝ) = (X + 1) / n := by
  obtain ⟨h1, h2⟩ := tau_span q n r X hq hr hX
  rw [uniformKnot_tau _ _ _ _ (by omega), uniformKnot_tau _ _ _ _ (by omega), h1, h2]
  constructor <;> push_cast <;> ring

theorem knot_dim (q n r : Nat) (hn : 0 < n) : (uniformKnot q n r (splineDim q n r) : ℝ) = 1 := by
  unfold uniformKnot splineDim
  rw [if_neg (by omega), if_neg (by omega)]

theorem span_lt (q n r X : Nat) (hq : 1 ≤ q) (hX : X < n) : q - 1 + r * X < splineDim q n r := by
  unfold splineDim
  have : r * X ≤ (n - 1) * r := by rw [Nat.mul_comm r]; exact Nat.mul_le_mul_right _ (by omega)
  omega

/-- The knot span of an element. -/
theorem inSpan_element (q n r X : Nat) (hq : 1 ≤ q) (hr : 1 ≤ r) (hX : X < n) (s : ℝ) (h0 : 0 ≤ s) (h1 : s < 1) (i : Nat) :
    inSpan (uniformKnot (K := ℝ) q n r) (splineDim q n r) i (((X : ℝ) + s) / n) ↔ i = q - 1 + r * X := by
  have hn : (0 : ℝ) < n := by exact_mod_cast (by omega : 0 < n)
  obtain ⟨k1, k2⟩ := knot_span q n r X hq hr hX
  have m := uniformKnot_mono q n r (by omega) hr
  have a1 : (X : ℝ) / n ≤ (X + s) / n := by rw [div_le_div_iff_of_pos_right hn]; linarith
  have a2 : ((X : ℝ) + s) / n < (X + 1) / n := by rw [div_lt_div_iff_of_pos_right hn]; linarith
  have a3 : ((X : ℝ) + 1) / n ≤ 1 := by
    rw [div_le_one hn]; exact_mod_cast (by omega : X + 1 ≤ n)
  constructor
  · rintro ⟨_, h, h'⟩
    have h' : ((X : ℝ) + s) / n < uniformKnot q n r (i + 1) := by
      rcases h' with h' | ⟨h', _, _⟩
      · exact h'
      · rw [knot_dim _ _ _ (by omega)] at h'; linarith
    by_contra hne
    rcases Nat.lt_or_ge i (q - 1 + r * X) with h2 | h2
    · have := m (show i + 1 ≤ q - 1 + r * X by omega); linarith
    · have := m (show q - 1 + r * X + 1 ≤ i by omega); linarith
  · rintro rfl
    exact ⟨span_lt q n r X hq hX, by rw [k1]; exact a1, Or.inl (by rw [k2]; exact a2)⟩

/-- Bernstein coefficient `j` of degree `p` of B-spline `d` of order `q` on element `X`. -/
noncomputable def coef (p q n r X d j : Nat) : ℝ :=
  if q = p + 1 then bezier (uniformKnot q n r) (q - 1 + r * X) (q - 1) d j
  else ((p - j : Nat) : ℝ) / p * bezier (uniformKnot q n r) (q - 1 + r * X) (q - 1) d j +
    (j : ℝ) / p * bezier (uniformKnot q n r) (q - 1 + r * X) (q - 1) d (j - 1)

/-- The B-splines in Bernstein form. -/
theorem spline_bern (p q n r X d : Nat) (hq : 1 ≤ q) (hpq : q = p + 1 ∨ q = p) (hr : 1 ≤ r) (hX : X < n) (s : ℝ) (h0 : 0 ≤ s) (h1 : s < 1) :
    uniformSpline q n r d (((X : ℝ) + s) / n) = ∑ j ∈ range (p + 1), bern p j s * coef p q n r X d j := by
  have hn : (0 : ℝ) < n := by exact_mod_cast (by omega : 0 < n)
  obtain ⟨k1, k2⟩ := knot_span q n r X hq hr hX
  have e : ((X : ℝ) + s) / n = (1 - s) * uniformKnot q n r (q - 1 + r * X) + s * uniformKnot q n r (q - 1 + r * X + 1) := by
    rw [k1, k2]; field_simp; ring
  have hl : (uniformKnot q n r (q - 1 + r * X) : ℝ) < uniformKnot q n r (q - 1 + r * X + 1) := by
    rw [k1, k2, div_lt_div_iff_of_pos_right hn]; linarith
  unfold uniformSpline
  rw [bspline_eq_polar _ _ _ _ (inSpan_element q n r X hq hr hX s h0 h1), e, polar_bern _ (uniformKnot_mono q n r (by omega) hr) _ hl]
  by_cases h : q = p + 1
  · subst h
    refine sum_congr rfl fun j _ => ?_
    rw [coef, if_pos rfl]; rfl
  · obtain rfl : q = p := by omega
    obtain ⟨k, rfl⟩ : ∃ k, q = k + 1 := ⟨q - 1, by omega⟩
    rw [show k + 1 - 1 = k by omega, bern_elevate]
    refine sum_congr rfl fun j _ => ?_
    rw [coef, if_neg h]
    push_cast; rfl

theorem coef_gap (p q n r X d j : Nat) (hq : 1 ≤ q) (hpq : q = p + 1 ∨ q = p) (hr : 1 ≤ r) (hX : X < n) (hj : j ≤ p) :
    coef p q n r X d j = 0 ∨ 1 / (p.factorial : ℝ) ≤ coef p q n r X d j := by
  have hn : (0 : ℝ) < n := by exact_mod_cast (by omega : 0 < n)
  have hs := tau_span q n r X hq hr hX
  have g : ∀ j ≤ q - 1, bezier (uniformKnot (K := ℝ) q n r) (q - 1 + r * X) (q - 1) d j = 0 ∨
      1 / ((q - 1).factorial : ℝ) ≤ bezier (uniformKnot q n r) (q - 1 + r * X) (q - 1) d j := fun j hj =>
    bezier_gap (uniformKnot (K := ℝ) q n r) (tau q n r) (1 / (n : ℝ)) (by positivity) (fun i => uniformKnot_tau q n r i (by omega)) (tau_mono q n r (by omega) hr)
      (tau_step q n r (by omega) hr) _ (by rw [hs.1, hs.2]; omega) _ _ j hj
  by_cases h : q = p + 1
  · rw [coef, if_pos h]
    have := g j (by omega)
    rwa [show (q - 1).factorial = p.factorial by rw [h]; rfl] at this
  · obtain rfl : q = p := by omega
    obtain ⟨k, rfl⟩ : ∃ k, q = k + 1 := ⟨q - 1, by omega⟩
    rw [coef, if_neg h]
    rw [show k + 1 - 1 = k by omega] at g ⊢
    have hk : (0 : ℝ) < ((k + 1 : Nat) : ℝ) := by positivity
    have fac : 1 / ((k + 1).factorial : ℝ) = 1 / ((k + 1 : Nat) : ℝ) * (1 / (k.factorial : ℝ)) := by
      rw [Nat.factorial_succ]; push_cast; rw [one_div_mul_one_div]
    have w : ∀ m : Nat, (m : ℝ) / ((k + 1 : Nat) : ℝ) = 0 ∨ 1 / ((k + 1 : Nat) : ℝ) ≤ (m : ℝ) / ((k + 1 : Nat) : ℝ) := by
      intro m
      rcases Nat.eq_zero_or_pos m with rfl | h
      · left; simp
      · right; rw [div_le_div_iff_of_pos_right hk]; exact_mod_cast h
    rw [fac]
    refine gap_add (by positivity) ?_ ?_
    · rcases Nat.lt_or_ge k j with h | h
      · left; rw [show k + 1 - j = 0 by omega]; simp
      · exact gap_mul (by positivity) (by positivity) (w _) (g j h)
    · rcases Nat.eq_zero_or_pos j with rfl | h
      · left; simp
      · exact gap_mul (by positivity) (by positivity) (w _) (g (j - 1) (by omega))

theorem bezier_support (t : Nat → ℝ) (l k d j : Nat) (hj : j ≤ k) (h : l < d ∨ d + k < l) : bezier t l k d j = 0 := by
  unfold bezier
  refine polar_support _ _ _ _ ?_
  rwa [List.length_append, List.length_replicate, List.length_replicate, show k - j + j = k by omega]

/-- The coefficients of the B-splines whose support does not contain the element vanish. -/
theorem coef_support (p q n r X d j : Nat) (hpq : q = p + 1 ∨ q = p) (hq : 1 ≤ q) (hj : j ≤ p)
    (h : q - 1 + r * X < d ∨ d + (q - 1) < q - 1 + r * X) : coef p q n r X d j = 0 := by
  unfold coef
  by_cases hp : q = p + 1
  · rw [if_pos hp]; exact bezier_support _ _ _ _ _ (by omega) h
  · rw [if_neg hp]
    have e1 : ((p - j : Nat) : ℝ) / p * bezier (uniformKnot q n r) (q - 1 + r * X) (q - 1) d j = 0 := by
      rcases Nat.lt_or_ge (q - 1) j with h' | h'
      · rw [show p - j = 0 by omega]; simp
      · rw [bezier_support _ _ _ _ _ h' h]; simp
    have e2 : (j : ℝ) / p * bezier (uniformKnot q n r) (q - 1 + r * X) (q - 1) d (j - 1) = 0 := by
      rw [bezier_support _ _ _ _ _ (by omega) h]; simp
    rw [e1, e2, add_zero]

/-- The dofs selected by the comparison with the midpoint. -/
theorem mid_iff (q n r X d : Nat) (hq : 1 ≤ q) (hr : 1 ≤ r) (hX : X < n) :
    ((uniformKnot q n r d : ℝ) ≤ ((X : ℝ) + 1 / 2) / n ∧ (uniformKnot q n r (d + q) : ℝ) ≥ ((X : ℝ) + 1 / 2) / n) ↔
      ¬ (q - 1 + r * X < d ∨ d + (q - 1) < q - 1 + r * X) := by
  have hn : (0 : ℝ) < n := by exact_mod_cast (by omega : 0 < n)
  obtain ⟨k1, k2⟩ := knot_span q n r X hq hr hX
  have m := uniformKnot_mono q n r (by omega) hr
  have a1 : (X : ℝ) / n < (X + 1 / 2) / n := by rw [div_lt_div_iff_of_pos_right hn]; linarith
  have a2 : ((X : ℝ) + 1 / 2) / n < (X + 1) / n := by rw [div_lt_div_iff_of_pos_right hn]; linarith
  constructor
  · rintro ⟨h1, h2⟩ h
    rcases h with h | h
    · have := m (show q - 1 + r * X + 1 ≤ d by omega); linarith
    · have := m (show d + q ≤ q - 1 + r * X by omega); linarith
  · intro h
    exact ⟨by have := m (show d ≤ q - 1 + r * X by omega); linarith, by have := m (show q - 1 + r * X + 1 ≤ d + q by omega); linarith⟩

/-- The knot vector computed by `makeUniformKnotVector`. -/
theorem knots_eq (q n r : Nat) (hn : 0 < n) (hr : 1 ≤ r) :
    (makeUniformKnotVector q (n - 1) r : List ℝ) = (List.range (splineDim q n r + q)).map (uniformKnot q n r) := by
  rw [makeUniform_eq]
  refine List.ext_getElem? fun i => ?_
  have hlen : ((List.range (n - 1)).flatMap fun (i : Nat) => List.replicate r (((i : ℝ) + 1) * (1 / (((n - 1 : Nat) : ℝ) + 1)))).length =
      (n - 1) * r := by simp
  have hn' : (((n - 1 : Nat) : ℝ) + 1) = n := by exact_mod_cast (by omega : n - 1 + 1 = n)
  rw [List.append_assoc]
  rcases Nat.lt_or_ge i q with h1 | h1
  · rw [List.getElem?_append_left (by simpa using h1), List.getElem?_replicate_of_lt h1, List.getElem?_map, List.getElem?_range (by unfold splineDim; omega)]
    simp [uniformKnot, h1]
  rw [List.getElem?_append_right (by simpa using h1), List.length_replicate]
  rcases Nat.lt_or_ge i (q + (n - 1) * r) with h2 | h2
  · have h3 : (i - q) / r < n - 1 := by rw [Nat.div_lt_iff_lt_mul (by omega)]; omega
    have e : i - q = (i - q) / r * r + (i - q) % r := by rw [Nat.mul_comm]; exact (Nat.div_add_mod _ _).symm
    have h4 : (i - q) % r < r := Nat.mod_lt _ (by omega)
    rw [List.getElem?_append_left (by rw [hlen]; omega), List.getElem?_map, List.getElem?_range (by unfold splineDim; omega)]
    conv_lhs => rw [e]
    rw [flatMap_getElem? (n - 1) r _ (fun i => by simp) _ _ h3 h4, List.getElem?_replicate_of_lt h4]
    simp only [uniformKnot, Option.map_some, if_neg (by omega : ¬ i < q), if_pos h2, hn']
    push_cast
    rw [mul_one_div]
  · rw [List.getElem?_append_right (by rw [hlen]; omega), hlen]
    rcases Nat.lt_or_ge i (splineDim q n r + q) with h3 | h3
    · rw [List.getElem?_replicate_of_lt (by unfold splineDim at h3; omega), List.getElem?_map, List.getElem?_range h3]
      simp [uniformKnot, if_neg (by omega : ¬ i < q), if_neg (by omega : ¬ i < q + (n - 1) * r)]
    · rw [List.getElem?_eq_none (by simp; unfold splineDim at h3; omega), List.getElem?_eq_none (by simpa using h3)]

end Bembel.Projector
