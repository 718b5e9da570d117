import Mathlib.Analysis.Calculus.LocalExtr.Rolle
import Mathlib.Analysis.Calculus.Deriv.Polynomial
import Mathlib.Analysis.Calculus.IteratedDeriv.Lemmas
import Mathlib.Analysis.RCLike.Basic
import Mathlib.Analysis.RCLike.Lemmas
import Verif.Spec.H2Init
import Verif.Lemmas.H2Transform
/-! # Error of polynomial interpolation -/

namespace Bembel.Interpol
open Finset H2 Polynomial

/-- `G k` is the `k`-th derivative of `G 0` on the unit interval, for `k ≤ n`. -/
def Chain {E : Type} [NormedAddCommGroup E] [NormedSpace ℝ E] (n : Nat) (G : Nat → ℝ → E) : Prop :=
  ∀ k < n, ∀ s ∈ Set.Icc (0 : ℝ) 1, HasDerivWithinAt (G k) (G (k + 1) s) (Set.Icc 0 1) s

/-- Rolle's theorem, repeated. -/
theorem rolle (n : Nat) : ∀ (G : Nat → ℝ → ℝ), Chain n G → ∀ z : Nat → ℝ, (∀ i ≤ n, z i ∈ Set.Icc (0 : ℝ) 1) →
    (∀ i < n, z i < z (i + 1)) → (∀ i ≤ n, G 0 (z i) = 0) → ∃ ζ ∈ Set.Icc (0 : ℝ) 1, G n ζ = 0 := by
  induction n with
  | zero => exact fun G _ z h1 _ h3 => ⟨z 0, h1 0 le_rfl, h3 0 le_rfl⟩
  | succ n ih =>
    intro G hG z h1 h2 h3
    have step : ∀ i, ∃ c, i ≤ n → c ∈ Set.Ioo (z i) (z (i + 1)) ∧ G 1 c = 0 := by
      intro i
      by_cases hi : i ≤ n
      swap
      · exact ⟨0, fun h => absurd h hi⟩
      have a1 := h1 i (by omega)
      have a2 := h1 (i + 1) (by omega)
      obtain ⟨c, hc, e⟩ := exists_hasDerivAt_eq_zero (f := G 0) (f' := G 1) (h2 i (by omega))
        (fun s hs => ((hG 0 (by omega) s ⟨a1.1.trans hs.1, hs.2.trans a2.2⟩).continuousWithinAt).mono (Set.Icc_subset_Icc a1.1 a2.2))
        ((h3 i (by omega)).trans (h3 (i + 1) (by omega)).symm)
        (fun s hs => (hG 0 (by omega) s ⟨a1.1.trans hs.1.le, hs.2.le.trans a2.2⟩).hasDerivAt
          (Icc_mem_nhds (lt_of_le_of_lt a1.1 hs.1) (lt_of_lt_of_le hs.2 a2.2)))
      exact ⟨c, fun _ => ⟨hc, e⟩⟩
    choose c hc using step
    refine ih (fun k => G (k + 1)) (fun k hk => hG (k + 1) (by omega)) c (fun i hi => ?_) (fun i hi => ?_) (fun i hi => (hc i hi).2)
    · have := (hc i hi).1
      exact ⟨(h1 i (by omega)).1.trans this.1.le, this.2.le.trans (h1 (i + 1) (by omega)).2⟩
    · exact (hc i (by omega)).1.2.trans (hc (i + 1) (by omega)).1.1

theorem rolle_finset (n : Nat) (G : Nat → ℝ → ℝ) (hG : Chain n G) (S : Finset ℝ) (hS : S.card = n + 1)
    (h1 : ∀ s ∈ S, s ∈ Set.Icc (0 : ℝ) 1) (h3 : ∀ s ∈ S, G 0 s = 0) : ∃ ζ ∈ Set.Icc (0 : ℝ) 1, G n ζ = 0 := by
  have mem : ∀ i, S.orderEmbOfFin hS i ∈ S := fun i => S.orderEmbOfFin_mem hS i
  refine rolle n G hG (fun i => if h : i < n + 1 then S.orderEmbOfFin hS ⟨i, h⟩ else 0) (fun i hi => ?_) (fun i hi => ?_) (fun i hi => ?_)
  · rw [dif_pos (by omega)]; exact h1 _ (mem _)
  · simp only [dif_pos (show i < n + 1 by omega), dif_pos (show i + 1 < n + 1 by omega)]
    exact (S.orderEmbOfFin hS).strictMono (Fin.mk_lt_mk.2 (by omega))
  · rw [dif_pos (by omega)]; exact h3 _ (mem _)

/-- Interpolation of a function on the unit interval. -/
noncomputable def interp {R : Type} [CommRing R] [Algebra ℝ R] (x : Nat → ℝ) (n : Nat) (g : ℝ → R) (s : ℝ) : R :=
  ∑ i ∈ range n, algebraMap ℝ R (lagrange x n i s) * g (x i)

/-- Lagrange polynomial. -/
noncomputable def lag (x : Nat → ℝ) (n i : Nat) : ℝ[X] := ∏ j ∈ (range n).erase i, (C (x i - x j)⁻¹ * (X - C (x j)))

theorem lag_eval (x : Nat → ℝ) (n i : Nat) (s : ℝ) : (lag x n i).eval s = lagrange x n i s := by
  unfold lag lagrange
  rw [eval_prod]
  refine prod_congr rfl fun j _ => ?_
  simp only [eval_mul, eval_C, eval_sub, eval_X]
  rw [div_eq_inv_mul]

theorem lag_degree (x : Nat → ℝ) (n i : Nat) (hi : i < n) : (lag x n i).degree < n := by
  unfold lag
  refine lt_of_le_of_lt (degree_prod_le _ _) ?_
  refine lt_of_le_of_lt (sum_le_sum (g := fun _ => (1 : WithBot ℕ)) fun j _ => ?_) ?_
  · refine (degree_mul_le _ _).trans ?_
    refine (add_le_add degree_C_le (degree_X_sub_C_le _)).trans ?_
    simp
  · rw [sum_const, card_erase_of_mem (mem_range.2 hi), card_range, nsmul_eq_mul, mul_one]
    exact_mod_cast Nat.sub_lt (by omega) one_pos

theorem lagrange_delta (x : Nat → ℝ) (n : Nat) (hx : Distinct x n) (i j : Nat) (hi : i < n) (hj : j < n) :
    lagrange x n i (x j) = if i = j then 1 else 0 := by
  unfold lagrange
  by_cases h : i = j
  · subst h
    rw [if_pos rfl]
    refine prod_eq_one fun k hk => div_self ?_
    have := mem_erase.1 hk
    exact sub_ne_zero.2 fun h => this.1 (hx _ hi _ (mem_range.1 this.2) h).symm
  · rw [if_neg h]
    exact prod_eq_zero (mem_erase.2 ⟨fun h' => h h'.symm, mem_range.2 hj⟩) (by simp)

/-- The classical error estimate, real case. -/
theorem error_real (n : Nat) (x : Nat → ℝ) (hx : Distinct x n) (hx01 : ∀ i < n, x i ∈ Set.Icc (0 : ℝ) 1) (G : Nat → ℝ → ℝ) (hG : Chain n G)
    (D : ℝ) (hD : ∀ s ∈ Set.Icc (0 : ℝ) 1, |G n s| ≤ D) (y : ℝ) (hy : y ∈ Set.Icc (0 : ℝ) 1) :
    |interp x n (G 0) y - G 0 y| ≤ D / n.factorial * ∏ i ∈ range n, |y - x i| := by
  have hD0 : 0 ≤ D := (abs_nonneg _).trans (hD y hy)
  by_cases hyx : ∃ j < n, y = x j
  · obtain ⟨j, hj, rfl⟩ := hyx
    have : interp x n (G 0) (x j) = G 0 (x j) := by
      unfold interp
      rw [sum_eq_single j (fun i hi hij => by rw [lagrange_delta x n hx i j (mem_range.1 hi) hj, if_neg hij]; simp)
        (fun h => absurd (mem_range.2 hj) h), lagrange_delta x n hx j j hj hj, if_pos rfl]
      simp
    rw [this, sub_self, abs_zero]
    positivity
  push Not at hyx
  have hW : ∏ i ∈ range n, (y - x i) ≠ 0 := prod_ne_zero_iff.2 fun i hi => sub_ne_zero.2 (hyx i (mem_range.1 hi))
  set p : ℝ[X] := ∑ i ∈ range n, C (G 0 (x i)) * lag x n i with hp
  set ω : ℝ[X] := ∏ i ∈ range n, (X - C (x i)) with hω
  have hpe : ∀ s, p.eval s = interp x n (G 0) s := by
    intro s
    rw [hp, eval_finsetSum]
    unfold interp
    refine sum_congr rfl fun i _ => ?_
    rw [eval_mul, eval_C, lag_eval, mul_comm]; rfl
  have hωe : ∀ s, ω.eval s = ∏ i ∈ range n, (s - x i) := by
    intro s
    rw [hω, eval_prod]
    simp
  have hpd : p.degree < n := by
    rcases Nat.eq_zero_or_pos n with rfl | hn
    · simp [hp]
    refine lt_of_le_of_lt (degree_sum_le _ _) ?_
    rw [Finset.sup_lt_iff (by exact_mod_cast WithBot.bot_lt_coe n)]
    intro i hi
    refine lt_of_le_of_lt ((degree_mul_le _ _).trans ((add_le_add_left degree_C_le _).trans ?_)) (lag_degree x n i (mem_range.1 hi))
    rw [zero_add]
  have hωm : ω.Monic := monic_prod_of_monic _ _ fun i _ => monic_X_sub_C _
  have hωd : ω.natDegree = n := by
    rw [hω, natDegree_prod_of_monic _ _ fun i _ => monic_X_sub_C _]
    simp
  set κ := (G 0 y - interp x n (G 0) y) / ∏ i ∈ range n, (y - x i) with hκ
  set q : ℝ[X] := p + C κ * ω with hq
  have hchain : Chain n fun k s => G k s - (derivative^[k] q).eval s := by
    intro k hk s hs
    refine (hG k hk s hs).sub ?_
    rw [Function.iterate_succ_apply']
    exact (Polynomial.hasDerivAt _ _).hasDerivWithinAt
  have hinj : Set.InjOn x (range n : Set ℕ) := fun i hi j hj h => hx i (mem_range.1 (mem_coe.1 hi)) j (mem_range.1 (mem_coe.1 hj)) h
  obtain ⟨ζ, hζ, e⟩ := rolle_finset n _ hchain (insert y ((range n).image x)) (by
    rw [card_insert_of_notMem, card_image_of_injOn hinj, card_range]
    intro h
    obtain ⟨i, hi, h⟩ := mem_image.1 h
    exact hyx i (mem_range.1 hi) h.symm) (by
    intro s hs
    rcases mem_insert.1 hs with rfl | hs
    · exact hy
    · obtain ⟨i, hi, rfl⟩ := mem_image.1 hs
      exact hx01 i (mem_range.1 hi)) (by
    intro s hs
    simp only [Function.iterate_zero, id, hq, eval_add, eval_mul, eval_C, hpe, hωe]
    rcases mem_insert.1 hs with rfl | hs
    · rw [hκ, div_mul_cancel₀ _ hW]; ring
    · obtain ⟨j, hj, rfl⟩ := mem_image.1 hs
      rw [prod_eq_zero hj (sub_self _)]
      have hj := mem_range.1 hj
      have : interp x n (G 0) (x j) = G 0 (x j) := by
        unfold interp
        rw [sum_eq_single j (fun i hi hij => by rw [lagrange_delta x n hx i j (mem_range.1 hi) hj, if_neg hij]; simp)
          (fun h => absurd (mem_range.2 hj) h), lagrange_delta x n hx j j hj hj, if_pos rfl]
        simp
      rw [this]; ring)
  have dq : (derivative^[n] q).eval ζ = κ * n.factorial := by
    rw [hq, iterate_map_add, iterate_derivative_C_mul]
    have d1 : derivative^[n] p = 0 := iterate_derivative_eq_zero_of_degree_lt hpd
    have d2 : derivative^[n] ω = C (n.factorial : ℝ) := by
      have h0 : (derivative^[n] ω).natDegree ≤ 0 := by
        have := natDegree_iterate_derivative ω n
        omega
      rw [eq_C_of_natDegree_le_zero h0]
      congr 1
      rw [coeff_iterate_derivative, zero_add, Nat.descFactorial_self, ← hωd, hωm.coeff_natDegree]
      simp
    rw [d1, d2]; simp
  have hGn : G n ζ = κ * n.factorial := by
    have : G n ζ - (derivative^[n] q).eval ζ = 0 := e
    rw [dq] at this; linarith
  have key : |κ| ≤ D / n.factorial := by
    rw [le_div_iff₀ (by positivity)]
    have := hD ζ hζ
    rwa [hGn, abs_mul, Nat.abs_cast] at this
  have : interp x n (G 0) y - G 0 y = -(κ * ∏ i ∈ range n, (y - x i)) := by rw [hκ, div_mul_cancel₀ _ hW]; ring
  rw [this, abs_neg, abs_mul, abs_prod]
  exact mul_le_mul_of_nonneg_right key (prod_nonneg fun _ _ => abs_nonneg _)

variable {R : Type} [RCLike R]

theorem interp_clm (x : Nat → ℝ) (n : Nat) (g : ℝ → R) (s : ℝ) (L : R →L[ℝ] ℝ) : L (interp x n g s) = interp x n (fun u => L (g u)) s := by
  unfold interp
  rw [map_sum]
  refine sum_congr rfl fun i _ => ?_
  rw [← Algebra.smul_def, map_smul]; rfl

/-- The classical error estimate for real or complex valued functions. -/
theorem error_one (n : Nat) (x : Nat → ℝ) (hx : Distinct x n) (hx01 : ∀ i < n, x i ∈ Set.Icc (0 : ℝ) 1) (G : Nat → ℝ → R) (hG : Chain n G)
    (D : ℝ) (hD : ∀ s ∈ Set.Icc (0 : ℝ) 1, ‖G n s‖ ≤ D) (y : ℝ) (hy : y ∈ Set.Icc (0 : ℝ) 1) :
    ‖interp x n (G 0) y - G 0 y‖ ≤ D / n.factorial * ∏ i ∈ range n, |y - x i| := by
  set e := interp x n (G 0) y - G 0 y with he
  have hD0 : 0 ≤ D := (norm_nonneg _).trans (hD y hy)
  by_cases h0 : e = 0
  · rw [h0, norm_zero]
    have : 0 ≤ ∏ i ∈ range n, |y - x i| := prod_nonneg fun _ _ => abs_nonneg _
    positivity
  have hn : ‖e‖ ≠ 0 := norm_ne_zero_iff.2 h0
  let L : R →L[ℝ] ℝ := RCLike.reCLM.comp ((ContinuousLinearMap.mul ℝ R) ((starRingEnd R) e / (‖e‖ : R)))
  have hL : ∀ z, L z = RCLike.re ((starRingEnd R) e / (‖e‖ : R) * z) := fun z => rfl
  have hLb : ∀ z, |L z| ≤ ‖z‖ := by
    intro z
    rw [hL]
    refine (RCLike.abs_re_le_norm _).trans ?_
    rw [norm_mul, norm_div, RCLike.norm_conj, RCLike.norm_ofReal, abs_norm, div_self hn, one_mul]
  have hLe : L e = ‖e‖ := by
    rw [hL, div_mul_eq_mul_div, RCLike.conj_mul]
    have : ((‖e‖ : R) ^ 2 / (‖e‖ : R)) = ((‖e‖ : ℝ) : R) := by
      rw [pow_two, mul_div_assoc, div_self (by exact_mod_cast hn), mul_one]
    rw [this, RCLike.ofReal_re]
  have := error_real n x hx hx01 (fun k s => L (G k s)) (fun k hk s hs => by
    exact L.hasFDerivAt.comp_hasDerivWithinAt s (hG k hk s hs)) D (fun s hs => (hLb _).trans (hD s hs)) y hy
  rw [← interp_clm x n (G 0) y L, ← map_sub, ← he, hLe, abs_norm] at this
  exact this

/-- `C^n` functions give chains of derivatives. -/
theorem chain_of_contDiffOn (n : Nat) (g : ℝ → R) (hg : ContDiffOn ℝ n g (Set.Icc 0 1)) :
    Chain n fun k s => iteratedDerivWithin k g (Set.Icc 0 1) s := by
  intro k hk s hs
  have hu := uniqueDiffOn_Icc (zero_lt_one (α := ℝ))
  have h := hg.differentiableOn_iteratedDerivWithin (m := k) (by exact_mod_cast hk) hu s hs
  have := h.hasDerivWithinAt
  rwa [← iteratedDerivWithin_succ] at this

/-- Interpolation of a bounded function. -/
theorem interp_bound (x : Nat → ℝ) (n : Nat) (L : ℝ) (s : ℝ) (hL : ∑ i ∈ range n, |lagrange x n i s| ≤ L)
    (g : ℝ → R) (C : ℝ) (hg : ∀ i < n, ‖g (x i)‖ ≤ C) (hC : 0 ≤ C) : ‖interp x n g s‖ ≤ L * C := by
  unfold interp
  refine (norm_sum_le _ _).trans ?_
  calc ∑ i ∈ range n, ‖algebraMap ℝ R (lagrange x n i s) * g (x i)‖ ≤ ∑ i ∈ range n, |lagrange x n i s| * C :=
        sum_le_sum fun i hi => by
          rw [norm_mul, norm_algebraMap', Real.norm_eq_abs]
          exact mul_le_mul_of_nonneg_left (hg i (mem_range.1 hi)) (abs_nonneg _)
    _ ≤ L * C := by rw [← sum_mul]; exact mul_le_mul_of_nonneg_right hL hC

theorem interp_sub (x : Nat → ℝ) (n : Nat) (g h : ℝ → R) (s : ℝ) : interp x n g s - interp x n h s = interp x n (fun u => g u - h u) s := by
  unfold interp
  rw [← sum_sub_distrib]
  exact sum_congr rfl fun i _ => by ring

/-- The interpolant in four variables as iterated interpolation. -/
theorem interpolate_eq (x : Nat → ℝ) (n : Nat) (f : ℝ × ℝ → ℝ × ℝ → R) (y z : ℝ × ℝ) :
    Spec.interpolate x n f y z = interp x n (fun a => interp x n (fun b => interp x n (fun c => interp x n (fun d => f (a, b) (c, d)) z.2) z.1) y.2) y.1 := by
  unfold Spec.interpolate Spec.lagrange2
  rw [H2.sum_range_mul]
  unfold interp
  refine sum_congr rfl fun i _ => ?_
  rw [mul_sum]
  refine sum_congr rfl fun j hj => ?_
  have hn : 0 < n := lt_of_le_of_lt (Nat.zero_le _) (mem_range.1 hj)
  have d1 : (i * n + j) / n = i := by rw [mul_comm, Nat.mul_add_div hn, Nat.div_eq_of_lt (mem_range.1 hj), add_zero]
  have d2 : (i * n + j) % n = j := by rw [mul_comm, Nat.mul_add_mod, Nat.mod_eq_of_lt (mem_range.1 hj)]
  rw [H2.sum_range_mul, mul_sum, mul_sum]
  refine sum_congr rfl fun k _ => ?_
  rw [mul_sum, mul_sum, mul_sum]
  refine sum_congr rfl fun l hl => ?_
  have e1 : (k * n + l) / n = k := by rw [mul_comm, Nat.mul_add_div hn, Nat.div_eq_of_lt (mem_range.1 hl), add_zero]
  have e2 : (k * n + l) % n = l := by rw [mul_comm, Nat.mul_add_mod, Nat.mod_eq_of_lt (mem_range.1 hl)]
  rw [d1, d2, e1, e2]
  simp only [map_mul]
  ring

/-- Error of the interpolation in four variables. -/
theorem error_four (n : Nat) (x : Nat → ℝ) (hx01 : ∀ i < n, x i ∈ Set.Icc (0 : ℝ) 1) (L : ℝ)
    (hL : ∀ s ∈ Set.Icc (0 : ℝ) 1, ∑ i ∈ range n, |lagrange x n i s| ≤ L) (f : ℝ × ℝ → ℝ × ℝ → R) (δ : ℝ)
    (h1 : ∀ b ∈ Set.Icc (0 : ℝ) 1, ∀ c ∈ Set.Icc (0 : ℝ) 1, ∀ d ∈ Set.Icc (0 : ℝ) 1, ∀ s ∈ Set.Icc (0 : ℝ) 1,
      ‖interp x n (fun a => f (a, b) (c, d)) s - f (s, b) (c, d)‖ ≤ δ)
    (h2 : ∀ a ∈ Set.Icc (0 : ℝ) 1, ∀ c ∈ Set.Icc (0 : ℝ) 1, ∀ d ∈ Set.Icc (0 : ℝ) 1, ∀ s ∈ Set.Icc (0 : ℝ) 1,
      ‖interp x n (fun b => f (a, b) (c, d)) s - f (a, s) (c, d)‖ ≤ δ)
    (h3 : ∀ a ∈ Set.Icc (0 : ℝ) 1, ∀ b ∈ Set.Icc (0 : ℝ) 1, ∀ d ∈ Set.Icc (0 : ℝ) 1, ∀ s ∈ Set.Icc (0 : ℝ) 1,
      ‖interp x n (fun c => f (a, b) (c, d)) s - f (a, b) (s, d)‖ ≤ δ)
    (h4 : ∀ a ∈ Set.Icc (0 : ℝ) 1, ∀ b ∈ Set.Icc (0 : ℝ) 1, ∀ c ∈ Set.Icc (0 : ℝ) 1, ∀ s ∈ Set.Icc (0 : ℝ) 1,
      ‖interp x n (fun d => f (a, b) (c, d)) s - f (a, b) (c, s)‖ ≤ δ)
    (y z : ℝ × ℝ) (hy1 : y.1 ∈ Set.Icc (0 : ℝ) 1) (hy2 : y.2 ∈ Set.Icc (0 : ℝ) 1) (hz1 : z.1 ∈ Set.Icc (0 : ℝ) 1) (hz2 : z.2 ∈ Set.Icc (0 : ℝ) 1) :
    ‖Spec.interpolate x n f y z - f y z‖ ≤ (1 + L + L ^ 2 + L ^ 3) * δ := by
  have hδ : 0 ≤ δ := (norm_nonneg _).trans (h1 _ hy2 _ hz1 _ hz2 _ hy1)
  have hL0 : 0 ≤ L := (sum_nonneg fun _ _ => abs_nonneg _).trans (hL y.1 hy1)
  rw [interpolate_eq]
  have e1 : ∀ a ∈ Set.Icc (0 : ℝ) 1, ∀ b ∈ Set.Icc (0 : ℝ) 1,
      ‖interp x n (fun c => interp x n (fun d => f (a, b) (c, d)) z.2) z.1 - f (a, b) z‖ ≤ L * δ + δ := by
    intro a ha b hb
    have k1 : ‖interp x n (fun c => interp x n (fun d => f (a, b) (c, d)) z.2 - f (a, b) (c, z.2)) z.1‖ ≤ L * δ :=
      interp_bound x n L z.1 (hL _ hz1) _ δ (fun i hi => h4 a ha b hb _ (hx01 i hi) _ hz2) hδ
    rw [← interp_sub] at k1
    have k2 := h3 a ha b hb _ hz2 _ hz1
    calc _ = ‖(interp x n (fun c => interp x n (fun d => f (a, b) (c, d)) z.2) z.1 - interp x n (fun c => f (a, b) (c, z.2)) z.1) +
          (interp x n (fun c => f (a, b) (c, z.2)) z.1 - f (a, b) (z.1, z.2))‖ := by congr 1; ring
      _ ≤ _ := (norm_add_le _ _).trans (add_le_add k1 k2)
  have e2 : ∀ a ∈ Set.Icc (0 : ℝ) 1,
      ‖interp x n (fun b => interp x n (fun c => interp x n (fun d => f (a, b) (c, d)) z.2) z.1) y.2 - f (a, y.2) z‖ ≤ L * (L * δ + δ) + δ := by
    intro a ha
    have k1 : ‖interp x n (fun b => interp x n (fun c => interp x n (fun d => f (a, b) (c, d)) z.2) z.1 - f (a, b) z) y.2‖ ≤ L * (L * δ + δ) :=
      interp_bound x n L y.2 (hL _ hy2) _ _ (fun i hi => e1 a ha _ (hx01 i hi)) (by positivity)
    rw [← interp_sub] at k1
    have k2 := h2 a ha _ hz1 _ hz2 _ hy2
    calc _ = ‖(interp x n (fun b => interp x n (fun c => interp x n (fun d => f (a, b) (c, d)) z.2) z.1) y.2 - interp x n (fun b => f (a, b) z) y.2) +
          (interp x n (fun b => f (a, b) (z.1, z.2)) y.2 - f (a, y.2) (z.1, z.2))‖ := by congr 1; ring
      _ ≤ _ := (norm_add_le _ _).trans (add_le_add k1 k2)
  have k1 : ‖interp x n (fun a => interp x n (fun b => interp x n (fun c => interp x n (fun d => f (a, b) (c, d)) z.2) z.1) y.2 - f (a, y.2) z) y.1‖ ≤
      L * (L * (L * δ + δ) + δ) :=
    interp_bound x n L y.1 (hL _ hy1) _ _ (fun i hi => e2 _ (hx01 i hi)) (by positivity)
  rw [← interp_sub] at k1
  have k2 := h1 _ hy2 _ hz1 _ hz2 _ hy1
  calc _ = ‖(interp x n (fun a => interp x n (fun b => interp x n (fun c => interp x n (fun d => f (a, b) (c, d)) z.2) z.1) y.2) y.1 -
          interp x n (fun a => f (a, y.2) z) y.1) + (interp x n (fun a => f (a, y.2) (z.1, z.2)) y.1 - f (y.1, y.2) (z.1, z.2))‖ := by congr 1; ring
    _ ≤ L * (L * (L * δ + δ) + δ) + δ := (norm_add_le _ _).trans (add_le_add k1 k2)
    _ = _ := by ring

end Bembel.Interpol
