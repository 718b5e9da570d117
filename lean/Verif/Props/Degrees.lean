import Verif.Model.PowInt
import Verif.Model.Duffy
import Mathlib.Analysis.SpecialFunctions.Log.Basic
import Mathlib.Tactic.Positivity
import Mathlib.Tactic.FieldSimp
/-!
# Property theorems C57: integer powers and quadrature degrees
-/

namespace Bembel.Props
open Mesh Util Duffy

theorem foldl_mul {K : Type} [Field K] (x : K) (n : Nat) : (List.range n).foldl (fun res _ => res * x) x = x ^ (n + 1) := by
  induction n with
  | zero => simp
  | succ n ih => rw [List.range_succ, List.foldl_append, ih]; simp [pow_succ]

/-- C57: integer powers are exact for exponents of every sign. -/
theorem C57_power {K : Type} [Field K] (x : K) (n : Int) : powInt x n = x ^ n := by
  unfold powInt
  split
  · rename_i h; simp [h]
  · rename_i h
    simp only [foldl_mul]
    by_cases h0 : n > 0
    · simp only [if_pos h0]
      obtain ⟨k, rfl⟩ := Int.eq_ofNat_of_zero_le h0.le
      rw [show (Int.toNat (k : Int) - 1 + 1) = k by simp at h0 ⊢; omega]
      simp
    · simp only [if_neg h0]
      obtain ⟨k, hk⟩ := Int.eq_ofNat_of_zero_le (show 0 ≤ -n by omega)
      rw [show ((-n).toNat - 1 + 1) = k by omega, show n = -(k : Int) by omega]
      simp

/-- C57: more precision never lowers the degree of the expansion, and the degree is at most twelve. -/
theorem C57_precision (a b : ℝ) (h : a ≤ b) : getDegree b ≤ getDegree a ∧ 4 ≤ getDegree b ∧ getDegree a ≤ 12 := by
  unfold getDegree
  split_ifs <;> first | omega | (exfalso; linarith) | skip

/-- C57: the far field degree grows linearly with the ansatz degree. -/
theorem C57_farfield (order : Int) (p q : Nat) : farfieldDegree order (p + q) = farfieldDegree order p + q ∧
    (order ≤ p + 1 → 0 ≤ farfieldDegree order p) := by
  unfold farfieldDegree
  constructor <;> intros <;> push_cast <;> omega

theorem truncInt_le (x c : ℝ) (h : x ≤ c) (hc : 0 ≤ c) : (truncInt x : ℝ) ≤ c := by
  unfold truncInt
  split
  · exact (Int.floor_le x).trans h
  · rename_i h0
    have : ⌈x⌉ ≤ 0 := by rw [Int.ceil_le]; push_cast; linarith
    calc ((⌈x⌉ : Int) : ℝ) ≤ 0 := by exact_mod_cast this
      _ ≤ c := hc

/-- C57: the degree chosen for a pair of elements is at least the far field degree and, for every distance, at most the larger
one of the far field degree and `(p + 2) level / 2`. -/
theorem C57_bound (order : Int) (p : Nat) (dist : ℝ) (level : Nat) (ho : order ≤ p + 1) :
    farfieldDegree order p ≤ pairDegree order p dist level ∧
      (pairDegree order p dist level : ℝ) ≤ max (farfieldDegree order p : ℝ) ((p + 2) * level / 2) := by
  constructor
  · unfold pairDegree; simp only []; split <;> omega
  · have key : (nearfieldDegree order p dist level : ℝ) ≤ max (farfieldDegree order p : ℝ) ((p + 2) * level / 2) := by
      have h2 : 0 < Real.log 2 := Real.log_pos (by norm_num)
      unfold nearfieldDegree
      simp only []
      set dl : ℝ := if dist * 2 ^ level < 1 then -(level * Real.log 2) else Real.log dist with hdl
      have hd : -(level * Real.log 2) ≤ dl := by
        rw [hdl]
        split
        · exact le_rfl
        · rename_i h
          push Not at h
          have hp : (0 : ℝ) < 2 ^ level := by positivity
          have : 0 < dist := by
            by_contra hn
            push Not at hn
            nlinarith
          have := Real.log_le_log (by norm_num) h
          rw [Real.log_one, Real.log_mul (by positivity) (by positivity), Real.log_pow] at this
          linarith
      obtain ⟨δ, hδ, e⟩ : ∃ δ : ℝ, 0 ≤ δ ∧ dl = (δ - level) * Real.log 2 := by
        refine ⟨dl / Real.log 2 + level, ?_, ?_⟩
        · have : -(level : ℝ) ≤ dl / Real.log 2 := by rw [le_div_iff₀ h2]; linarith
          linarith
        · field_simp; ring
      have hff : (0 : ℝ) ≤ (farfieldDegree order p : ℝ) := by
        have := (C57_farfield order p 0).2 ho
        exact_mod_cast this
      refine truncInt_le _ _ ?_ (le_max_of_le_left hff)
      set c := max (farfieldDegree order p : ℝ) ((p + 2) * level / 2) with hc
      have c1 : (p - order + 1 : ℝ) ≤ c := by
        refine le_trans (le_of_eq ?_) (le_max_left _ _)
        unfold farfieldDegree; push_cast; ring
      have c2 : ((p : ℝ) + 2) * level / 2 ≤ c := le_max_right _ _
      have c0 : 0 ≤ c := le_max_of_le_left hff
      rw [e, div_le_iff₀ (by nlinarith)]
      push_cast
      have h3 : (0.5 : ℝ) * ((2 - order + 2 * p + p) * level - (2 - p + order) * (δ - level)) ≤ c * (level + 2 + (δ - level)) := by
        norm_num
        nlinarith
      nlinarith
    unfold pairDegree
    simp only []
    split
    · exact key
    · exact le_max_left _ _

/-- C57: the assertion on the largest quadrature degree can fail only for high degrees or very fine meshes, whatever the
positions of the elements. -/
theorem C57_no_assert (order : Int) (p : Nat) (dist : ℝ) (level : Nat) (ho : order ≤ p + 1) (hp : p - order + 1 < 50)
    (hl : (p + 2) * level < 100) : 0 ≤ pairDegree order p dist level ∧ pairDegree order p dist level < 50 := by
  obtain ⟨h1, h2⟩ := C57_bound order p dist level ho
  refine ⟨((C57_farfield order p 0).2 ho).trans h1, ?_⟩
  have : (pairDegree order p dist level : ℝ) < 50 := by
    refine lt_of_le_of_lt h2 (max_lt ?_ ?_)
    · unfold farfieldDegree; exact_mod_cast hp
    · have : (((p + 2) * level : Nat) : ℝ) < 100 := by exact_mod_cast hl
      push_cast at this
      linarith
  exact_mod_cast this

/-- C57: the bound is attained: touching elements of equal size need `(p + 2) level / 2` (rounded), whatever the operator. -/
theorem C57_attained (order : Int) (p level : Nat) : nearfieldDegree order p 0 level = (((p + 2) * level / 2 : Nat) : Int) := by
  have h2 : 0 < Real.log 2 := Real.log_pos (by norm_num)
  unfold nearfieldDegree
  simp only [zero_mul, zero_lt_one, if_true]
  rw [show (0.5 * (((2 - order + 2 * p + p : Int) : ℝ) * level * Real.log 2 - ((2 - p + order : Int) : ℝ) * -(level * Real.log 2)) /
      (((level : ℝ) + 2) * Real.log 2 + -(level * Real.log 2))) = (((p + 2) * level : Nat) : ℝ) / ((2 : Nat) : ℝ) by
    push_cast
    rw [div_eq_div_iff (by nlinarith) (by norm_num)]
    norm_num
    ring]
  unfold truncInt
  rw [if_pos (by positivity)]
  rw [Int.floor_div_natCast, Int.floor_natCast, Int.natCast_ediv]

example : powInt (2 : ℚ) (-3) = 1 / 8 ∧ powInt (2 : ℚ) 5 = 32 ∧ powInt (0 : ℚ) 0 = 1 := by
  simp only [C57_power]; norm_num

/-- The hypotheses are met: single layer operator, ansatz degree 3, 15 levels. -/
example (dist : ℝ) : 0 ≤ pairDegree (-1) 3 dist 15 ∧ pairDegree (-1) 3 dist 15 < 50 :=
  C57_no_assert (-1) 3 dist 15 (by norm_num) (by norm_num) (by norm_num)

/-- Twenty levels with ansatz degree three are too many: the degree 50 is not available. -/
example : pairDegree (-1) 3 0 20 = 50 := by
  unfold pairDegree
  simp only [C57_attained]
  norm_num [farfieldDegree]

end Bembel.Props
