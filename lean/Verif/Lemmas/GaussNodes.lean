import Verif.Spec.Quadrature
import Mathlib.Algebra.Polynomial.BigOperators
import Mathlib.Algebra.Polynomial.Monic
import Mathlib.Topology.Algebra.Polynomial
import Mathlib.MeasureTheory.Integral.IntervalIntegral.FundThmCalculus
import Mathlib.Analysis.Normed.Module.Basic
/-! # Nodes of quadrature rules of the highest degree of exactness -/

namespace Bembel.Props
open Finset Polynomial H2

/-- A polynomial whose square has integral zero is zero. -/
theorem poly_sq_zero (p : ℝ[X]) (h : ∫ x in (0:ℝ)..1, (p * p).eval x = 0) : p = 0 := by
  by_contra hp
  refine absurd h (ne_of_gt ?_)
  refine intervalIntegral.integral_pos (by norm_num) (p * p).continuousOn (fun x _ => by rw [eval_mul]; exact mul_self_nonneg _) ?_
  obtain ⟨x, hx, hxS⟩ := (Set.Ioo_infinite (a := (0:ℝ)) (b := 1) (by norm_num)).exists_notMem_finset p.roots.toFinset
  refine ⟨x, Set.Ioo_subset_Icc_self hx, ?_⟩
  rw [eval_mul]
  refine mul_self_pos.2 fun h0 => hxS ?_
  rw [Multiset.mem_toFinset, mem_roots hp]; exact h0

/-- The nodes are distinct. -/
theorem exact_injective (q : Quad1 ℝ) (n : Nat) (hs : q.size = n) (hn : 1 ≤ n) (hex : ExactTo q (2 * n - 1)) : Set.InjOn q.xi (range n) := by
  classical
  rw [← card_image_iff, card_range]
  by_contra hne
  have hlt : ((range n).image q.xi).card < n := lt_of_le_of_ne (card_image_le.trans (by simp)) hne
  set S := (range n).image q.xi with hS
  let p : ℝ[X] := ∏ y ∈ S, (X - C y)
  have hp : p.natDegree ≤ S.card := by
    refine (natDegree_prod_le _ _).trans ?_
    exact (sum_le_card_nsmul _ _ 1 fun y _ => by simp).trans (by simp)
  have h := hex (p * p) (natDegree_mul_le.trans (by omega))
  have h0 : p = 0 := by
    refine poly_sq_zero p (h.symm.trans (sum_eq_zero fun a ha => ?_))
    have : p.eval (q.xi a) = 0 := by
      simp only [p, eval_prod]
      rw [hs] at ha
      exact prod_eq_zero (mem_image_of_mem _ ha) (by simp)
    rw [eval_mul, this]; simp
  exact (monic_prod_of_monic S _ fun y _ => monic_X_sub_C y).ne_zero h0

/-- The set of the nodes is symmetric. -/
theorem exact_symmetric (q : Quad1 ℝ) (n : Nat) (hs : q.size = n) (hn : 1 ≤ n) (hex : ExactTo q (2 * n - 1)) (a : Nat) (ha : a < n) :
    ∃ b < n, q.xi b = 1 - q.xi a := by
  let W : ℝ[X] := ∏ b ∈ range n, (X - C (q.xi b))
  let R : ℝ[X] := 1 - X
  have hWm : W.Monic := monic_prod_of_monic _ _ fun y _ => monic_X_sub_C _
  have hWd : W.natDegree = n := by
    simp only [W]; rw [natDegree_prod_of_monic _ _ fun y _ => monic_X_sub_C _]; simp
  have hR : R.natDegree ≤ 1 := (natDegree_sub_le _ _).trans (by simp)
  let V : ℝ[X] := ∏ b ∈ range n, (X - C (1 - q.xi b))
  have hVm : V.Monic := monic_prod_of_monic _ _ fun y _ => monic_X_sub_C _
  have hVd : V.natDegree = n := by
    simp only [V]; rw [natDegree_prod_of_monic _ _ fun y _ => monic_X_sub_C _]
    simp only [natDegree_X_sub_C, sum_const, card_range, smul_eq_mul, mul_one]
  have hV : ∀ x, V.eval x = (-1) ^ n * W.eval (1 - x) := by
    intro x
    simp only [V, W, eval_prod, eval_sub, eval_X, eval_C]
    rw [← card_range n, ← prod_const, card_range, ← prod_mul_distrib]
    exact prod_congr rfl fun b _ => by ring
  have orth : ∀ g : ℝ[X], g.natDegree ≤ n - 1 → ∫ x in (0:ℝ)..1, W.eval x * g.eval x = 0 := by
    intro g hg
    have h := hex (W * g) (natDegree_mul_le.trans (by omega))
    simp only [eval_mul] at h
    rw [← h, hs]
    refine sum_eq_zero fun b hb => ?_
    have : W.eval (q.xi b) = 0 := by
      simp only [W, eval_prod]; exact prod_eq_zero hb (by simp)
    rw [this]; simp
  have orthV : ∀ g : ℝ[X], g.natDegree ≤ n - 1 → ∫ x in (0:ℝ)..1, V.eval x * g.eval x = 0 := by
    intro g hg
    have h := orth (g.comp R) (natDegree_comp_le.trans (by nlinarith [Nat.mul_le_mul_left g.natDegree hR]))
    have h2 := intervalIntegral.integral_comp_sub_left (fun x => W.eval x * (g.comp R).eval x) (a := 0) (b := 1) 1
    simp only [sub_self, sub_zero] at h2
    rw [h] at h2
    have : ∀ x, V.eval x * g.eval x = (-1) ^ n * (W.eval (1 - x) * (g.comp R).eval (1 - x)) := by
      intro x
      rw [hV, eval_comp]
      simp only [R, eval_sub, eval_one, eval_X, sub_sub_cancel]
      ring
    simp only [this]
    rw [intervalIntegral.integral_const_mul, h2, mul_zero]
  have hD : (W - V).natDegree ≤ n - 1 := by
    have := degree_sub_lt_left (p := W) (q := V) (by rw [degree_eq_natDegree hWm.ne_zero, degree_eq_natDegree hVm.ne_zero, hWd, hVd]) hWm.ne_zero
      (by rw [hWm.leadingCoeff, hVm.leadingCoeff])
    rw [degree_eq_natDegree hWm.ne_zero, hWd] at this
    by_cases h0 : W - V = 0
    · rw [h0]; simp
    · have := (natDegree_lt_iff_degree_lt h0).2 this
      omega
  have h0 : W - V = 0 := by
    apply poly_sq_zero
    have e : ∀ x, ((W - V) * (W - V)).eval x = W.eval x * (W - V).eval x - V.eval x * (W - V).eval x := by
      intro x; rw [eval_mul, ← sub_mul, ← eval_sub]
    simp only [e]
    rw [intervalIntegral.integral_sub, orth _ hD, orthV _ hD, sub_zero] <;>
      exact (Continuous.mul (Polynomial.continuous _) (Polynomial.continuous _)).intervalIntegrable _ _
  have hr : V.eval (1 - q.xi a) = 0 := by
    simp only [V, eval_prod]; exact prod_eq_zero (mem_range.2 ha) (by simp)
  rw [← sub_eq_zero.1 h0] at hr
  simp only [W, eval_prod, prod_eq_zero_iff] at hr
  obtain ⟨b, hb, h⟩ := hr
  simp only [eval_sub, eval_X, eval_C, sub_eq_zero] at h
  exact ⟨b, mem_range.1 hb, h.symm⟩

/-- Sums over the nodes are invariant under reflection. -/
theorem exact_reflect (q : Quad1 ℝ) (n : Nat) (hs : q.size = n) (hn : 1 ≤ n) (hex : ExactTo q (2 * n - 1)) (g : ℝ → ℝ) :
    ∑ a ∈ range n, g (1 - q.xi a) = ∑ a ∈ range n, g (q.xi a) := by
  classical
  have hi := exact_injective q n hs hn hex
  rw [← sum_image (f := g) (g := fun a => q.xi a) (fun a ha b hb h => hi ha hb h),
    ← sum_image (f := g) (g := fun a => 1 - q.xi a) (fun a ha b hb h => hi ha hb (by linarith [show 1 - q.xi a = 1 - q.xi b from h]))]
  congr 1
  ext t
  simp only [mem_image, mem_range]
  constructor
  · rintro ⟨a, ha, rfl⟩
    obtain ⟨b, hb, e⟩ := exact_symmetric q n hs hn hex a ha
    exact ⟨b, hb, e⟩
  · rintro ⟨a, ha, rfl⟩
    obtain ⟨b, hb, e⟩ := exact_symmetric q n hs hn hex a ha
    exact ⟨b, hb, by rw [e]; ring⟩

end Bembel.Props
