import Mathlib.MeasureTheory.Integral.DominatedConvergence
import Mathlib.Analysis.SpecialFunctions.Integrals.Basic
import Mathlib.Topology.Order.ProjIcc
import Verif.Lemmas.Jackson
import Verif.Lemmas.ChebyshevBound
import Verif.Spec.Compression
import Verif.Spec.Quadrature
import Verif.Props.Multipole
/-! # Interpolation and quadrature of smooth functions -/

namespace Bembel.Interpol
open Finset H2 Spec

variable {R : Type} [RCLike R]

theorem interp_poly (x : Nat → ℝ) (n : Nat) (hx : Distinct x n) (q : ℝ → R) (d : Nat) (hd : d < n) (hq : VPoly d q) (s : ℝ) :
    interp x n q s = q s := by
  obtain ⟨c, hc⟩ := hq
  rw [hc]
  unfold interp
  simp only [hc, ← Algebra.smul_def, smul_sum]
  rw [sum_comm]
  refine sum_congr rfl fun k hk => ?_
  have := Props.lagrange_reproduce x n hx (Polynomial.X ^ k) (by
    rw [Polynomial.degree_X_pow]; exact_mod_cast lt_of_lt_of_le (mem_range.1 hk) hd) s
  simp only [Polynomial.eval_pow, Polynomial.eval_X] at this
  rw [← this, sum_smul]
  exact sum_congr rfl fun i _ => by rw [smul_smul, mul_comm]

/-- Chebyshev interpolation of functions with `m` bounded derivatives. -/
theorem cheb_jackson (n m : Nat) (hm : m < n) (g : ℝ → R) (D : ℝ) (hg : DerivBound m g D) (hd : Distinct (chebychevRoots n) n)
    (h01 : ∀ i < n, 0 ≤ chebychevRoots n i ∧ chebychevRoots n i ≤ 1) (s : ℝ) (hs : s ∈ Set.Icc (0 : ℝ) 1) :
    ‖interp (chebychevRoots n) n g s - g s‖ ≤ (1 + 2 * n) * (D / (2 * √((n : ℝ) - m)) ^ m) := by
  obtain ⟨q, hq, hqe⟩ := jackson m (n - 1 - m) (fun k s => iteratedDerivWithin k g (Set.Icc 0 1) s) (chain_of_contDiffOn m g hg.1) D hg.2
  simp only [iteratedDerivWithin_zero] at hqe
  have e : ((n - 1 - m : Nat) : ℝ) + 1 = n - m := by
    have : (n - 1 - m : Nat) + 1 + m = n := by omega
    have : ((n - 1 - m : Nat) : ℝ) + 1 + m = n := by exact_mod_cast this
    linarith
  rw [e] at hqe
  set ε := D / (2 * √((n : ℝ) - m)) ^ m
  have hε : 0 ≤ ε := (norm_nonneg _).trans (hqe 0 (by simp))
  have h1 := interp_poly (chebychevRoots n) n hd q (n - 1 - m + m) (by omega) hq s
  have h2 : interp (chebychevRoots n) n g s - g s = interp (chebychevRoots n) n (fun u => g u - q u) s - (g s - q s) := by
    rw [← interp_sub, h1]; ring
  rw [h2]
  refine (norm_sub_le _ _).trans ?_
  have h3 := interp_bound (chebychevRoots n) n (2 * n) s (lebesgue_bound n s hs) (fun u => g u - q u) ε (fun i hi => hqe _ (h01 i hi)) hε
  have h4 := hqe s hs
  linarith

/-! ### quadrature -/

/-- Quadrature on the unit interval. -/
noncomputable def quad (Q : Quad1 ℝ) (g : ℝ → R) : R := ∑ q ∈ range Q.size, Q.w q • g (Q.xi q)

theorem quad_sub (Q : Quad1 ℝ) (g h : ℝ → R) : quad Q (fun s => g s - h s) = quad Q g - quad Q h := by
  unfold quad
  rw [← sum_sub_distrib]
  exact sum_congr rfl fun q _ => smul_sub _ _ _

/-- Quadrature rules with non-negative weights of sum at most `W` and nodes in the unit interval. -/
structure Positive (Q : Quad1 ℝ) (W : ℝ) : Prop where
  nodes : ∀ q < Q.size, 0 ≤ Q.xi q ∧ Q.xi q ≤ 1
  weights : ∀ q < Q.size, 0 ≤ Q.w q
  total : ∑ q ∈ range Q.size, Q.w q ≤ W

theorem quad_bound (Q : Quad1 ℝ) (W : ℝ) (hQ : Positive Q W) (g : ℝ → R) (ε : ℝ) (hε : 0 ≤ ε) (hg : ∀ s ∈ Set.Icc (0 : ℝ) 1, ‖g s‖ ≤ ε) :
    ‖quad Q g‖ ≤ W * ε := by
  unfold quad
  refine (norm_sum_le _ _).trans ?_
  refine le_trans (sum_le_sum (g := fun q => Q.w q * ε) fun q hq => ?_) (by rw [← sum_mul]; exact mul_le_mul_of_nonneg_right hQ.total hε)
  have hq := mem_range.1 hq
  rw [norm_smul, Real.norm_of_nonneg (hQ.weights q hq)]
  exact mul_le_mul_of_nonneg_left (hg _ (hQ.nodes q hq)) (hQ.weights q hq)

theorem int_bound (g : ℝ → R) (ε : ℝ) (hg : ∀ s ∈ Set.Icc (0 : ℝ) 1, ‖g s‖ ≤ ε) : ‖∫ s in (0 : ℝ)..1, g s‖ ≤ ε := by
  have := intervalIntegral.norm_integral_le_of_norm_le_const (a := 0) (b := 1) (f := g) (C := ε) fun s hs => by
    rw [Set.uIoc_of_le zero_le_one] at hs
    exact hg s ⟨hs.1.le, hs.2⟩
  simpa using this

theorem quad_poly (Q : Quad1 ℝ) (d : Nat) (hQ : Props.ExactTo Q d) (q : ℝ → R) (hq : VPoly d q) : quad Q q = ∫ s in (0 : ℝ)..1, q s := by
  obtain ⟨c, hc⟩ := hq
  have hq : q = fun x => ∑ i ∈ range (d + 1), x ^ i • c i := funext hc
  rw [hq, intervalIntegral.integral_finset_sum fun i _ => Continuous.intervalIntegrable (by fun_prop) _ _]
  unfold quad
  simp only [smul_sum]
  rw [sum_comm]
  refine sum_congr rfl fun i hi => ?_
  have := hQ (Polynomial.X ^ i) (by rw [Polynomial.natDegree_X_pow]; exact Nat.lt_succ_iff.1 (mem_range.1 hi))
  simp only [Polynomial.eval_pow, Polynomial.eval_X] at this
  rw [intervalIntegral.integral_smul_const, ← this, sum_smul]
  exact sum_congr rfl fun k _ => by rw [smul_smul]

theorem quad_jackson (Q : Quad1 ℝ) (W : ℝ) (hP : Positive Q W) (d m : Nat) (hQ : Props.ExactTo Q d) (hm : m ≤ d) (g : ℝ → R) (D : ℝ)
    (hg : DerivBound m g D) :
    ‖quad Q g - ∫ s in (0 : ℝ)..1, g s‖ ≤ (1 + W) * (D / (2 * √((d : ℝ) + 1 - m)) ^ m) := by
  obtain ⟨q, hq, hqe⟩ := jackson m (d - m) (fun k s => iteratedDerivWithin k g (Set.Icc 0 1) s) (chain_of_contDiffOn m g hg.1) D hg.2
  simp only [iteratedDerivWithin_zero] at hqe
  rw [Nat.sub_add_cancel hm] at hq
  have e : ((d - m : Nat) : ℝ) + 1 = d + 1 - m := by
    have : ((d - m : Nat) : ℝ) + m = d := by exact_mod_cast Nat.sub_add_cancel hm
    linarith
  rw [e] at hqe
  set ε := D / (2 * √((d : ℝ) + 1 - m)) ^ m
  have hε : 0 ≤ ε := (norm_nonneg _).trans (hqe 0 (by simp))
  have gi : IntervalIntegrable g MeasureTheory.volume 0 1 := by
    refine ContinuousOn.intervalIntegrable ?_
    rw [Set.uIcc_of_le zero_le_one]
    exact hg.1.continuousOn
  have qi : IntervalIntegrable q MeasureTheory.volume 0 1 := by
    obtain ⟨c, hc⟩ := hq
    rw [show q = fun x => ∑ i ∈ range (d + 1), x ^ i • c i from funext hc]
    exact Continuous.intervalIntegrable (by fun_prop) _ _
  have h1 := quad_poly Q d hQ q hq
  have h2 : quad Q g - ∫ s in (0 : ℝ)..1, g s = quad Q (fun s => g s - q s) - ∫ s in (0 : ℝ)..1, (g s - q s) := by
    rw [quad_sub, h1, intervalIntegral.integral_sub gi qi]; ring
  rw [h2]
  refine (norm_sub_le _ _).trans ?_
  have h3 := quad_bound Q W hP (fun s => g s - q s) ε hε hqe
  have h4 := int_bound (fun s => g s - q s) ε hqe
  linarith

theorem quad_trivial (Q : Quad1 ℝ) (W : ℝ) (hP : Positive Q W) (g : ℝ → R) (D : ℝ) (hD : 0 ≤ D) (hg : ∀ s ∈ Set.Icc (0 : ℝ) 1, ‖g s‖ ≤ D) :
    ‖quad Q g - ∫ s in (0 : ℝ)..1, g s‖ ≤ (1 + W) * D := by
  refine (norm_sub_le _ _).trans ?_
  have h3 := quad_bound Q W hP g D hD hg
  have h4 := int_bound g D hg
  linarith

/-- Two variables. -/
theorem quad_two (Q : Quad1 ℝ) (W : ℝ) (hP : Positive Q W) (G : ℝ → ℝ → R) (hG : Continuous fun x : ℝ × ℝ => G x.1 x.2) (ε : ℝ) (hε : 0 ≤ ε)
    (h1 : ∀ b ∈ Set.Icc (0 : ℝ) 1, ‖quad Q (fun a => G a b) - ∫ a in (0 : ℝ)..1, G a b‖ ≤ ε)
    (h2 : ∀ a ∈ Set.Icc (0 : ℝ) 1, ‖quad Q (fun b => G a b) - ∫ b in (0 : ℝ)..1, G a b‖ ≤ ε) :
    ‖quad Q (fun a => quad Q fun b => G a b) - ∫ a in (0 : ℝ)..1, ∫ b in (0 : ℝ)..1, G a b‖ ≤ (1 + W) * ε := by
  have c1 : Continuous fun a => ∫ b in (0 : ℝ)..1, G a b := intervalIntegral.continuous_parametric_intervalIntegral_of_continuous' hG 0 1
  have c2 : Continuous fun a => quad Q fun b => G a b := by
    unfold quad
    exact continuous_finsetSum _ fun q _ => (hG.comp (continuous_id.prodMk continuous_const)).const_smul _
  have e1 : (∫ a in (0 : ℝ)..1, ∫ b in (0 : ℝ)..1, G a b) = (∫ a in (0 : ℝ)..1, quad Q fun b => G a b) -
      ∫ a in (0 : ℝ)..1, ((quad Q fun b => G a b) - ∫ b in (0 : ℝ)..1, G a b) := by
    rw [intervalIntegral.integral_sub (c2.intervalIntegrable _ _) (c1.intervalIntegrable _ _)]; ring
  have e2 : (∫ a in (0 : ℝ)..1, quad Q fun b => G a b) = quad Q fun b => ∫ a in (0 : ℝ)..1, G a b := by
    unfold quad
    rw [intervalIntegral.integral_finset_sum (f := fun q a => Q.w q • G a (Q.xi q)) fun q _ =>
      ((hG.comp (continuous_id.prodMk continuous_const)).const_smul _).intervalIntegrable _ _]
    exact sum_congr rfl fun q _ => by rw [intervalIntegral.integral_smul]
  have e3 : (quad Q fun a => quad Q fun b => G a b) = quad Q fun b => quad Q fun a => G a b := by
    unfold quad
    simp only [smul_sum]
    rw [sum_comm]
    exact sum_congr rfl fun i _ => sum_congr rfl fun j _ => smul_comm _ _ _
  rw [e1, e2, e3, sub_sub_eq_add_sub, add_sub_right_comm, ← quad_sub]
  refine (norm_add_le _ _).trans ?_
  have h3 := quad_bound Q W hP (fun b => quad Q (fun a => G a b) - ∫ a in (0 : ℝ)..1, G a b) ε hε h1
  have h4 := int_bound (fun a => quad Q (fun b => G a b) - ∫ b in (0 : ℝ)..1, G a b) ε h2
  linarith

/-- Four variables. -/
theorem quad_four (Q : Quad1 ℝ) (W : ℝ) (hW : 0 ≤ W) (hP : Positive Q W) (F : ℝ × ℝ → ℝ × ℝ → R) (hF : Continuous fun x : (ℝ × ℝ) × (ℝ × ℝ) => F x.1 x.2)
    (ε : ℝ) (hε : 0 ≤ ε)
    (h1 : ∀ b ∈ Set.Icc (0 : ℝ) 1, ∀ c ∈ Set.Icc (0 : ℝ) 1, ∀ d ∈ Set.Icc (0 : ℝ) 1,
      ‖quad Q (fun a => F (a, b) (c, d)) - ∫ a in (0 : ℝ)..1, F (a, b) (c, d)‖ ≤ ε)
    (h2 : ∀ a ∈ Set.Icc (0 : ℝ) 1, ∀ c ∈ Set.Icc (0 : ℝ) 1, ∀ d ∈ Set.Icc (0 : ℝ) 1,
      ‖quad Q (fun b => F (a, b) (c, d)) - ∫ b in (0 : ℝ)..1, F (a, b) (c, d)‖ ≤ ε)
    (h3 : ∀ a ∈ Set.Icc (0 : ℝ) 1, ∀ b ∈ Set.Icc (0 : ℝ) 1, ∀ d ∈ Set.Icc (0 : ℝ) 1,
      ‖quad Q (fun c => F (a, b) (c, d)) - ∫ c in (0 : ℝ)..1, F (a, b) (c, d)‖ ≤ ε)
    (h4 : ∀ a ∈ Set.Icc (0 : ℝ) 1, ∀ b ∈ Set.Icc (0 : ℝ) 1, ∀ c ∈ Set.Icc (0 : ℝ) 1,
      ‖quad Q (fun d => F (a, b) (c, d)) - ∫ d in (0 : ℝ)..1, F (a, b) (c, d)‖ ≤ ε) :
    ‖quad Q (fun a => quad Q fun b => quad Q fun c => quad Q fun d => F (a, b) (c, d)) -
      ∫ a in (0 : ℝ)..1, ∫ b in (0 : ℝ)..1, ∫ c in (0 : ℝ)..1, ∫ d in (0 : ℝ)..1, F (a, b) (c, d)‖ ≤ (1 + W ^ 2) * ((1 + W) * ε) := by
  -- the inner integrals
  let X : ℝ → ℝ → R := fun a b => quad Q fun c => quad Q fun d => F (a, b) (c, d)
  let Y : ℝ → ℝ → R := fun a b => ∫ c in (0 : ℝ)..1, ∫ d in (0 : ℝ)..1, F (a, b) (c, d)
  have inner : ∀ a ∈ Set.Icc (0 : ℝ) 1, ∀ b ∈ Set.Icc (0 : ℝ) 1, ‖X a b - Y a b‖ ≤ (1 + W) * ε := fun a ha b hb =>
    quad_two Q W hP (fun c d => F (a, b) (c, d)) (hF.comp (continuous_const.prodMk continuous_id)) ε hε (fun d hd => h3 a ha b hb d hd)
      (fun c hc => h4 a ha b hb c hc)
  have cX : Continuous fun x : ℝ × ℝ => X x.1 x.2 := by
    show Continuous fun x : ℝ × ℝ => quad Q fun c => quad Q fun d => F (x.1, x.2) (c, d)
    unfold quad
    exact continuous_finsetSum _ fun q _ => (continuous_finsetSum _ fun q' _ => (hF.comp (continuous_id.prodMk continuous_const)).const_smul _).const_smul _
  have cY : Continuous fun x : ℝ × ℝ => Y x.1 x.2 := by
    show Continuous fun x : ℝ × ℝ => ∫ c in (0 : ℝ)..1, ∫ d in (0 : ℝ)..1, F (x.1, x.2) (c, d)
    refine intervalIntegral.continuous_parametric_intervalIntegral_of_continuous' (f := fun (x : ℝ × ℝ) c => ∫ d in (0 : ℝ)..1, F (x.1, x.2) (c, d)) ?_ 0 1
    refine intervalIntegral.continuous_parametric_intervalIntegral_of_continuous' (f := fun (x : (ℝ × ℝ) × ℝ) d => F (x.1.1, x.1.2) (x.2, d)) ?_ 0 1
    exact hF.comp (Continuous.prodMk (by fun_prop) (by fun_prop))
  have e1 : (∫ a in (0 : ℝ)..1, ∫ b in (0 : ℝ)..1, Y a b) = (∫ a in (0 : ℝ)..1, ∫ b in (0 : ℝ)..1, X a b) -
      ∫ a in (0 : ℝ)..1, ∫ b in (0 : ℝ)..1, (X a b - Y a b) := by
    have i1 : ∀ a, (∫ b in (0 : ℝ)..1, (X a b - Y a b)) = (∫ b in (0 : ℝ)..1, X a b) - ∫ b in (0 : ℝ)..1, Y a b := fun a =>
      intervalIntegral.integral_sub ((cX.comp (continuous_const.prodMk continuous_id)).intervalIntegrable _ _)
        ((cY.comp (continuous_const.prodMk continuous_id)).intervalIntegrable _ _)
    simp only [i1]
    rw [intervalIntegral.integral_sub
      ((intervalIntegral.continuous_parametric_intervalIntegral_of_continuous' (f := X) cX 0 1).intervalIntegrable _ _)
      ((intervalIntegral.continuous_parametric_intervalIntegral_of_continuous' (f := Y) cY 0 1).intervalIntegrable _ _)]
    ring
  -- the outer quadrature of `X`, by linearity
  have comm : ∀ H : ℝ → ℝ → R, (quad Q fun a => quad Q fun c => H a c) = quad Q fun c => quad Q fun a => H a c := by
    intro H
    unfold quad
    simp only [smul_sum]
    rw [sum_comm]
    exact sum_congr rfl fun i _ => sum_congr rfl fun j _ => smul_comm _ _ _
  have e2 : (quad Q fun a => quad Q fun b => X a b) = quad Q fun c => quad Q fun d => quad Q fun a => quad Q fun b => F (a, b) (c, d) := by
    show (quad Q fun a => quad Q fun b => quad Q fun c => quad Q fun d => F (a, b) (c, d)) = _
    calc _ = quad Q fun a => quad Q fun c => quad Q fun b => quad Q fun d => F (a, b) (c, d) := by congr 1; funext a; exact comm _
      _ = quad Q fun c => quad Q fun a => quad Q fun b => quad Q fun d => F (a, b) (c, d) := comm _
      _ = quad Q fun c => quad Q fun a => quad Q fun d => quad Q fun b => F (a, b) (c, d) := by
          congr 1; funext c; congr 1; funext a; exact comm _
      _ = _ := by congr 1; funext c; exact comm _
  have lin : ∀ H : ℝ → ℝ × ℝ → R, (Continuous fun x : ℝ × (ℝ × ℝ) => H x.1 x.2) → (Continuous fun x : ℝ × ℝ => quad Q fun c => H c x) ∧
      (∫ a in (0 : ℝ)..1, ∫ b in (0 : ℝ)..1, quad Q fun c => H c (a, b)) = quad Q fun c => ∫ a in (0 : ℝ)..1, ∫ b in (0 : ℝ)..1, H c (a, b) := by
    intro H hH
    refine ⟨by unfold quad; exact continuous_finsetSum _ fun q _ => (hH.comp (continuous_const.prodMk continuous_id)).const_smul _, ?_⟩
    unfold quad
    have j1 : ∀ a, (∫ b in (0 : ℝ)..1, ∑ q ∈ range Q.size, Q.w q • H (Q.xi q) (a, b)) =
        ∑ q ∈ range Q.size, Q.w q • ∫ b in (0 : ℝ)..1, H (Q.xi q) (a, b) := by
      intro a
      rw [intervalIntegral.integral_finset_sum (f := fun q b => Q.w q • H (Q.xi q) (a, b)) fun q _ =>
        ((hH.comp (continuous_const.prodMk (continuous_const.prodMk continuous_id))).const_smul _).intervalIntegrable _ _]
      exact sum_congr rfl fun q _ => by rw [intervalIntegral.integral_smul]
    simp only [j1]
    rw [intervalIntegral.integral_finset_sum (f := fun q a => Q.w q • ∫ b in (0 : ℝ)..1, H (Q.xi q) (a, b)) fun q _ =>
      ((intervalIntegral.continuous_parametric_intervalIntegral_of_continuous' (f := fun a b => H (Q.xi q) (a, b))
        (hH.comp (continuous_const.prodMk continuous_id)) 0 1).const_smul _).intervalIntegrable _ _]
    exact sum_congr rfl fun q _ => by rw [intervalIntegral.integral_smul]
  have e3 : (∫ a in (0 : ℝ)..1, ∫ b in (0 : ℝ)..1, X a b) =
      quad Q fun c => quad Q fun d => ∫ a in (0 : ℝ)..1, ∫ b in (0 : ℝ)..1, F (a, b) (c, d) := by
    have k : Continuous fun x : ℝ × (ℝ × ℝ) => quad Q fun d => F x.2 (x.1, d) := by
      unfold quad
      refine continuous_finsetSum _ fun q _ => Continuous.const_smul ?_ _
      exact hF.comp (Continuous.prodMk (by fun_prop) (by fun_prop))
    rw [show (∫ a in (0 : ℝ)..1, ∫ b in (0 : ℝ)..1, X a b) = ∫ a in (0 : ℝ)..1, ∫ b in (0 : ℝ)..1, quad Q fun c => quad Q fun d => F (a, b) (c, d) from rfl,
      (lin (fun c x => quad Q fun d => F x (c, d)) k).2]
    congr 1
    funext c
    exact (lin (fun d x => F x (c, d)) (hF.comp (Continuous.prodMk (by fun_prop) (by fun_prop)))).2
  have outer : ‖(quad Q fun a => quad Q fun b => X a b) - ∫ a in (0 : ℝ)..1, ∫ b in (0 : ℝ)..1, X a b‖ ≤ W ^ 2 * ((1 + W) * ε) := by
    rw [e2, e3, ← quad_sub]
    simp only [← quad_sub]
    have hp : 0 ≤ (1 + W) * ε := by positivity
    have := quad_bound Q W hP (fun c => quad Q fun d => (quad Q fun a => quad Q fun b => F (a, b) (c, d)) -
      ∫ a in (0 : ℝ)..1, ∫ b in (0 : ℝ)..1, F (a, b) (c, d)) (W * ((1 + W) * ε)) (by positivity) (fun c hc =>
        quad_bound Q W hP _ _ hp fun d hd => quad_two Q W hP (fun a b => F (a, b) (c, d)) (hF.comp (continuous_id.prodMk continuous_const)) ε hε
          (fun b hb => h1 b hb c hc d hd) (fun a ha => h2 a ha c hc d hd))
    refine this.trans (le_of_eq (by ring))
  have h5 := int_bound (fun a => ∫ b in (0 : ℝ)..1, (X a b - Y a b)) ((1 + W) * ε) fun a ha => int_bound _ _ fun b hb => inner a ha b hb
  show ‖(quad Q fun a => quad Q fun b => X a b) - ∫ a in (0 : ℝ)..1, ∫ b in (0 : ℝ)..1, Y a b‖ ≤ _
  rw [e1, sub_sub_eq_add_sub, add_sub_right_comm]
  refine (norm_add_le _ _).trans ?_
  linarith

end Bembel.Interpol
