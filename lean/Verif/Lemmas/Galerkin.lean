import Mathlib.Topology.MetricSpace.ProperSpace
import Mathlib.Topology.Order.Compact
import Mathlib.Algebra.Order.BigOperators.Ring.Finset
import Mathlib.Algebra.Order.Chebyshev
import Verif.Spec.SingleLayer
import Verif.Props.WellPosed
/-! # Perturbations of positive definite linear systems -/

namespace Bembel.Galerkin
open Finset Spec

/-- Positive definite matrices are coercive. -/
theorem coercive (n : Nat) (A : Nat → Nat → ℝ) (hA : PositiveDefinite n A) :
    ∃ α > 0, ∀ f : Nat → ℝ, α * ∑ c ∈ range n, f c ^ 2 ≤ ∑ c ∈ range n, f c * ∑ d ∈ range n, A c d * f d := by
  rcases Nat.eq_zero_or_pos n with rfl | hn
  · exact ⟨1, one_pos, fun f => by simp⟩
  let E : (Fin n → ℝ) → Nat → ℝ := fun f c => if h : c < n then f ⟨c, h⟩ else 0
  let q : (Fin n → ℝ) → ℝ := fun f => ∑ c ∈ range n, E f c * ∑ d ∈ range n, A c d * E f d
  let S : Set (Fin n → ℝ) := {f | ∑ c ∈ range n, E f c ^ 2 = 1}
  have hS : ∀ f, f ∈ S ↔ ∑ c ∈ range n, E f c ^ 2 = 1 := fun f => Iff.rfl
  have hE : ∀ c, Continuous fun f => E f c := fun c => by
    by_cases h : c < n
    · simp only [E, h, dif_pos]; exact continuous_apply _
    · simp only [E, h, dif_neg, not_false_eq_true]; exact continuous_const
  have hs : Continuous fun f => ∑ c ∈ range n, E f c ^ 2 := continuous_finsetSum _ fun c _ => (hE c).pow 2
  have hq : Continuous q := continuous_finsetSum _ fun c _ => (hE c).mul (continuous_finsetSum _ fun d _ => continuous_const.mul (hE d))
  have hc : IsCompact S := by
    refine (isCompact_closedBall (0 : Fin n → ℝ) 1).of_isClosed_subset (isClosed_singleton.preimage hs) fun f hf => ?_
    rw [mem_closedBall_zero_iff, pi_norm_le_iff_of_nonneg zero_le_one]
    intro c
    have h1 : E f c ^ 2 ≤ 1 := by
      rw [← (show ∑ c ∈ range n, E f c ^ 2 = 1 from hf)]
      exact single_le_sum (f := fun c => E f c ^ 2) (fun _ _ => sq_nonneg _) (mem_range.2 c.2)
    have h2 : E f c = f c := by simp [E]
    rw [h2] at h1
    rw [Real.norm_eq_abs]
    exact (sq_le_one_iff_abs_le_one _).1 h1
  have hne : S.Nonempty := ⟨fun c => if c.1 = 0 then 1 else 0, by
    rw [hS, sum_eq_single 0]
    · simp [E, hn]
    · intro c _ h0
      simp [E, h0]
    · intro h; exact absurd (mem_range.2 hn) h⟩
  obtain ⟨f0, hf0, hmin⟩ := hc.exists_isMinOn hne hq.continuousOn
  have h0 : 0 < q f0 := by
    refine hA (E f0) ?_
    by_contra h
    push Not at h
    have : ∑ c ∈ range n, E f0 c ^ 2 = 1 := hf0
    rw [sum_eq_zero fun c hc => by rw [h c (mem_range.1 hc)]; ring] at this
    exact zero_ne_one this
  refine ⟨q f0, h0, fun f => ?_⟩
  set s := ∑ c ∈ range n, f c ^ 2 with hsd
  have s0 : 0 ≤ s := sum_nonneg fun _ _ => sq_nonneg _
  rcases s0.eq_or_lt with h | h
  · have hz : ∀ c ∈ range n, f c = 0 := fun c hc => by
      have := (sum_eq_zero_iff_of_nonneg fun c _ => sq_nonneg (f c)).1 h.symm c hc
      exact pow_eq_zero_iff two_ne_zero |>.1 this
    rw [← h, mul_zero, sum_eq_zero fun c hc => by rw [hz c hc, zero_mul]]
  · have r0 : 0 < √s := Real.sqrt_pos.2 h
    have hEf : ∀ c ∈ range n, E (fun c => f c / √s) c = f c / √s := fun c hc => by simp [E, mem_range.1 hc]
    have mem : (fun c : Fin n => f c / √s) ∈ S := by
      rw [hS, sum_congr rfl fun c hc => by rw [hEf c hc, div_pow, Real.sq_sqrt s0], ← sum_div, ← hsd, div_self h.ne']
    have := hmin mem
    have e : q (fun c : Fin n => f c / √s) = (∑ c ∈ range n, f c * ∑ d ∈ range n, A c d * f d) / s := by
      simp only [q]
      rw [sum_div]
      refine sum_congr rfl fun c hc => ?_
      rw [hEf c hc, mul_sum, mul_sum, sum_div]
      refine sum_congr rfl fun d hd => ?_
      rw [hEf d hd]
      have hss : √s * √s = s := Real.mul_self_sqrt s0
      calc f c / √s * (A c d * (f d / √s)) = f c * (A c d * f d) / (√s * √s) := by
            rw [mul_div_assoc', div_mul_div_comm]
        _ = _ := by rw [hss]
    have this : q f0 ≤ _ := this
    rw [e, le_div_iff₀ h] at this
    exact this

/-- Small perturbations of a positive definite system are positive definite and uniquely solvable, and the solutions depend continuously on the
data. -/
theorem stable (n : Nat) (A : Nat → Nat → ℝ) (hA : PositiveDefinite n A) (xs vs : Nat → ℝ) (hx : Solves n A xs vs) :
    ∃ ε0 > 0, ∃ K ≥ 0, ∀ (S : Nat → Nat → ℝ) (ε : ℝ), ε ≤ ε0 → (∀ c < n, ∀ d < n, |S c d - A c d| ≤ ε) →
      PositiveDefinite n S ∧ (∀ v : Nat → ℝ, ∃ x, Solves n S x v ∧ ∀ y, Solves n S y v → ∀ c < n, y c = x c) ∧
      ∀ v x : Nat → ℝ, Solves n S x v → (∀ c < n, |v c - vs c| ≤ ε) → ∀ c < n, |x c - xs c| ≤ K * ε := by
  obtain ⟨α, α0, hα⟩ := coercive n A hA
  have form : ∀ (S : Nat → Nat → ℝ) (ε : ℝ), (∀ c < n, ∀ d < n, |S c d - A c d| ≤ ε) → ∀ f : Nat → ℝ,
      (α - n * ε) * ∑ c ∈ range n, f c ^ 2 ≤ ∑ c ∈ range n, f c * ∑ d ∈ range n, S c d * f d := fun S ε h f => by
    rcases Nat.eq_zero_or_pos n with rfl | hn
    · simp
    have ε0 : 0 ≤ ε := (abs_nonneg _).trans (h 0 hn 0 hn)
    have e : (∑ c ∈ range n, f c * ∑ d ∈ range n, A c d * f d) - ∑ c ∈ range n, f c * ∑ d ∈ range n, S c d * f d =
        ∑ c ∈ range n, ∑ d ∈ range n, f c * ((A c d - S c d) * f d) := by
      rw [← sum_sub_distrib]
      refine sum_congr rfl fun c _ => ?_
      rw [← mul_sub, ← sum_sub_distrib, mul_sum]
      exact sum_congr rfl fun d _ => by ring
    have b : ∑ c ∈ range n, ∑ d ∈ range n, f c * ((A c d - S c d) * f d) ≤ n * ε * ∑ c ∈ range n, f c ^ 2 := by
      calc _ ≤ ∑ c ∈ range n, ∑ d ∈ range n, ε * (|f c| * |f d|) := by
            refine sum_le_sum fun c hc => sum_le_sum fun d hd => (le_abs_self _).trans ?_
            rw [abs_mul, abs_mul, abs_sub_comm]
            have := h c (mem_range.1 hc) d (mem_range.1 hd)
            nlinarith [mul_nonneg (abs_nonneg (f c)) (abs_nonneg (f d))]
        _ = ε * (∑ c ∈ range n, |f c|) ^ 2 := by
            rw [sq, sum_mul_sum, mul_sum]
            exact sum_congr rfl fun c _ => by rw [mul_sum]
        _ ≤ ε * (n * ∑ c ∈ range n, |f c| ^ 2) := by
            refine mul_le_mul_of_nonneg_left ?_ ε0
            have := sq_sum_le_card_mul_sum_sq (s := range n) (f := fun c => |f c|)
            rwa [card_range] at this
        _ = _ := by simp only [sq_abs]; ring
    have := hα f
    linarith
  set X := ∑ c ∈ range n, |xs c| with hX
  have X0 : 0 ≤ X := sum_nonneg fun _ _ => abs_nonneg _
  refine ⟨α / (2 * (n + 1)), by positivity, 2 * n * (1 + X) / α, by positivity, fun S ε hε h => ?_⟩
  have half : α / 2 ≤ α - n * ε := by
    have : (n : ℝ) * ε ≤ n * (α / (2 * (n + 1))) := mul_le_mul_of_nonneg_left hε (by positivity)
    have h2 : (n : ℝ) * (α / (2 * (n + 1))) ≤ α / 2 := by
      rw [mul_div_assoc', div_le_div_iff₀ (by positivity) two_pos]
      nlinarith
    linarith
  have co : ∀ f : Nat → ℝ, α / 2 * ∑ c ∈ range n, f c ^ 2 ≤ ∑ c ∈ range n, f c * ∑ d ∈ range n, S c d * f d := fun f =>
    (mul_le_mul_of_nonneg_right half (sum_nonneg fun _ _ => sq_nonneg _)).trans (form S ε h f)
  have pd : PositiveDefinite n S := fun f ⟨c, hc, hf⟩ => by
    refine lt_of_lt_of_le ?_ (co f)
    exact mul_pos (by positivity) (sum_pos' (fun _ _ => sq_nonneg _) ⟨c, mem_range.2 hc, by positivity⟩)
  refine ⟨pd, fun v => ?_, fun v x hxv hv c hc => ?_⟩
  · refine Props.WellPosed.solvable n S (fun x hx c hc => ?_) v
    by_contra hne
    have := pd x ⟨c, hc, hne⟩
    rw [sum_eq_zero fun c hc => by rw [hx c (mem_range.1 hc), mul_zero]] at this
    exact lt_irrefl _ this
  · have ε0 : 0 ≤ ε := (abs_nonneg _).trans (hv c hc)
    let e : Nat → ℝ := fun c => x c - xs c
    obtain ⟨m, hm, hmax⟩ := exists_max_image (range n) (fun c => |e c|) ⟨c, mem_range.2 hc⟩
    have res : ∀ c ∈ range n, |∑ d ∈ range n, S c d * e d| ≤ ε * (1 + X) := fun c hc => by
      have hc' := mem_range.1 hc
      have eq : ∑ d ∈ range n, S c d * e d = (v c - vs c) - ∑ d ∈ range n, (S c d - A c d) * xs d := by
        simp only [e, mul_sub, sub_mul, sum_sub_distrib]
        rw [hxv c hc', hx c hc']
        ring
      rw [eq]
      have b : |∑ d ∈ range n, (S c d - A c d) * xs d| ≤ ε * X := by
        refine (abs_sum_le_sum_abs _ _).trans ?_
        rw [hX, mul_sum]
        refine sum_le_sum fun d hd => ?_
        rw [abs_mul]
        exact mul_le_mul_of_nonneg_right (h c hc' d (mem_range.1 hd)) (abs_nonneg _)
      have := abs_sub (v c - vs c) (∑ d ∈ range n, (S c d - A c d) * xs d)
      have := hv c hc'
      linarith
    have up : ∑ c ∈ range n, e c * ∑ d ∈ range n, S c d * e d ≤ n * (|e m| * (ε * (1 + X))) := by
      calc _ ≤ ∑ c ∈ range n, |e m| * (ε * (1 + X)) := by
            refine sum_le_sum fun c hc => (le_abs_self _).trans ?_
            rw [abs_mul]
            exact mul_le_mul (hmax c hc) (res c hc) (abs_nonneg _) (abs_nonneg _)
        _ = _ := by rw [sum_const, card_range, nsmul_eq_mul]
    have low : e m ^ 2 ≤ ∑ c ∈ range n, e c ^ 2 := single_le_sum (f := fun c => e c ^ 2) (fun _ _ => sq_nonneg _) hm
    have key : α / 2 * |e m| ^ 2 ≤ n * (|e m| * (ε * (1 + X))) := by
      rw [sq_abs]
      exact (mul_le_mul_of_nonneg_left low (by positivity)).trans ((co e).trans up)
    have fin : |e m| ≤ 2 * n * (1 + X) / α * ε := by
      rw [div_mul_eq_mul_div, le_div_iff₀ α0]
      rcases (abs_nonneg (e m)).eq_or_lt with h0 | h0
      · rw [← h0, zero_mul]; positivity
      · have : |e m| * (α / 2 * |e m|) ≤ |e m| * (n * (ε * (1 + X))) := by linarith
        have := le_of_mul_le_mul_left this h0
        linarith
    exact (hmax c (mem_range.2 hc)).trans fin

end Bembel.Galerkin
