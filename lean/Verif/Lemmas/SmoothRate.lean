import Verif.Lemmas.SmoothSlice
/-! # Convergence faster than every power -/

namespace Bembel.Interpol
open Finset H2 Spec
open scoped ContDiff

variable {R : Type} [RCLike R]

theorem rate_aux (x N : ℝ) (m j : Nat) (hm : m = 2 * j) (hN : (m : ℝ) + 1 ≤ N) (hx : x = N - m) (D : ℝ) (hD : 0 ≤ D) :
    D / (2 * √x) ^ m ≤ D * ((m + 1) / N) ^ j := by
  have hN0 : 0 < N := by have : (0 : ℝ) ≤ m := Nat.cast_nonneg m; linarith
  have hx0 : 0 < x := by rw [hx]; linarith
  have e : (2 * √x) ^ m = (4 * x) ^ j := by
    rw [hm, pow_mul, mul_pow, Real.sq_sqrt hx0.le]; norm_num
  rw [e, div_eq_mul_inv, ← inv_pow]
  refine mul_le_mul_of_nonneg_left (pow_le_pow_left₀ (by positivity) ?_ j) hD
  rw [inv_le_comm₀ (by positivity) (by positivity), inv_div, div_le_iff₀ (by positivity), hx]
  have : (0 : ℝ) ≤ m := Nat.cast_nonneg m
  nlinarith

/-- Interpolation of functions with `m` bounded derivatives, in four variables. -/
theorem interp_finite (n m : Nat) (hm : m < n) (hd : Distinct (chebychevRoots n) n)
    (h01 : ∀ i < n, 0 ≤ chebychevRoots n i ∧ chebychevRoots n i ≤ 1) (f : ℝ × ℝ → ℝ × ℝ → R) (D : ℝ) (hf : PartialBound m f D)
    (y z : ℝ × ℝ) (hy : ClosedSquare y) (hz : ClosedSquare z) :
    ‖interpolate (chebychevRoots n) n f y z - f y z‖ ≤
      (1 + 2 * n + (2 * n) ^ 2 + (2 * n) ^ 3) * ((1 + 2 * n) * (D / (2 * √((n : ℝ) - m)) ^ m)) :=
  error_four n (chebychevRoots n) h01 (2 * n) (fun s hs => lebesgue_bound n s hs) f _
    (fun b hb c hc d hd' s hs => cheb_jackson n m hm _ D (hf (b, b) (c, d) ⟨hb.1, hb.2, hb.1, hb.2⟩ ⟨hc.1, hc.2, hd'.1, hd'.2⟩).1 hd h01 s hs)
    (fun a ha c hc d hd' s hs => cheb_jackson n m hm _ D (hf (a, a) (c, d) ⟨ha.1, ha.2, ha.1, ha.2⟩ ⟨hc.1, hc.2, hd'.1, hd'.2⟩).2.1 hd h01 s hs)
    (fun a ha b hb d hd' s hs => cheb_jackson n m hm _ D (hf (a, b) (d, d) ⟨ha.1, ha.2, hb.1, hb.2⟩ ⟨hd'.1, hd'.2, hd'.1, hd'.2⟩).2.2.1 hd h01 s hs)
    (fun a ha b hb c hc s hs => cheb_jackson n m hm _ D (hf (a, b) (c, c) ⟨ha.1, ha.2, hb.1, hb.2⟩ ⟨hc.1, hc.2, hc.1, hc.2⟩).2.2.2 hd h01 s hs)
    y z ⟨hy.1, hy.2.1⟩ ⟨hy.2.2.1, hy.2.2.2⟩ ⟨hz.1, hz.2.1⟩ ⟨hz.2.2.1, hz.2.2.2⟩

theorem interp_rate (f : ℝ × ℝ → ℝ × ℝ → R) (hf : SmoothPair f) (k : Nat) : ∃ C, 0 ≤ C ∧ ∀ n : Nat, 0 < n → Distinct (chebychevRoots n) n →
    (∀ i < n, 0 ≤ chebychevRoots n i ∧ chebychevRoots n i ≤ 1) → ∀ y z, ClosedSquare y → ClosedSquare z →
    ‖interpolate (chebychevRoots n) n f y z - f y z‖ ≤ C / (n : ℝ) ^ k := by
  set j := k + 4 with hj
  set m := 2 * j with hm
  obtain ⟨D, D0, hD⟩ := partial_bound f hf m
  obtain ⟨A, A0, hA⟩ := partial_bound f hf 0
  refine ⟨45 * max D A * (m + 1) ^ j, by positivity, fun n hn hd h01 y z hy hz => ?_⟩
  have hn' : (1 : ℝ) ≤ n := by exact_mod_cast hn
  have n0 : (0 : ℝ) < n := by linarith
  have g1 : (1 + 2 * (n : ℝ) + (2 * n) ^ 2 + (2 * n) ^ 3) * (1 + 2 * n) ≤ 45 * n ^ 4 := by
    have a2 : (n : ℝ) ≤ n ^ 2 := by nlinarith
    have a3 : (n : ℝ) ^ 2 ≤ n ^ 3 := by nlinarith [sq_nonneg (n : ℝ)]
    have a4 : (n : ℝ) ^ 3 ≤ n ^ 4 := by nlinarith [pow_pos n0 3]
    nlinarith
  have key : ∀ B ≤ max D A, 0 ≤ B → ‖interpolate (chebychevRoots n) n f y z - f y z‖ ≤
      (1 + 2 * n + (2 * n) ^ 2 + (2 * n) ^ 3) * ((1 + 2 * n) * (B * ((m + 1) / n) ^ j)) →
      ‖interpolate (chebychevRoots n) n f y z - f y z‖ ≤ 45 * max D A * (m + 1) ^ j / (n : ℝ) ^ k := by
    intro B hB B0 h
    refine h.trans ?_
    rw [← mul_assoc]
    calc _ ≤ 45 * (n : ℝ) ^ 4 * (max D A * ((m + 1) / n) ^ j) := by
          refine mul_le_mul g1 (mul_le_mul_of_nonneg_right hB (by positivity)) (by positivity) (by positivity)
      _ = _ := by
          rw [div_pow, hj, pow_add (n : ℝ) k 4]
          field_simp
  by_cases h : m < n
  · refine key D (le_max_left _ _) D0 ((interp_finite n m h hd h01 f D hD y z hy hz).trans ?_)
    gcongr
    refine rate_aux _ n m j hm (by exact_mod_cast h) rfl D D0
  · refine key A (le_max_right _ _) A0 ((interp_finite n 0 hn hd h01 f A hA y z hy hz).trans ?_)
    gcongr
    rw [pow_zero, div_one]
    refine le_mul_of_one_le_right A0 (one_le_pow₀ ?_)
    rw [le_div_iff₀ n0, one_mul]
    have : (n : ℝ) ≤ m := by exact_mod_cast not_lt.1 h
    linarith

/-- The integral over two squares. -/
noncomputable def integral4 (f : ℝ × ℝ → ℝ × ℝ → R) : R :=
  ∫ a in (0 : ℝ)..1, ∫ b in (0 : ℝ)..1, ∫ c in (0 : ℝ)..1, ∫ d in (0 : ℝ)..1, f (a, b) (c, d)

theorem quadSquare_eq (Q : Quad1 ℝ) (g : ℝ × ℝ → R) : quadSquare Q g = quad Q fun a => quad Q fun b => g (a, b) := by
  unfold quadSquare quad
  refine sum_congr rfl fun a _ => ?_
  rw [smul_sum]
  refine sum_congr rfl fun b _ => ?_
  rw [← Algebra.smul_def, smul_smul]

theorem quad_congr (Q : Quad1 ℝ) (W : ℝ) (hP : Positive Q W) (g h : ℝ → R) (e : ∀ s ∈ Set.Icc (0 : ℝ) 1, g s = h s) : quad Q g = quad Q h := by
  unfold quad
  exact sum_congr rfl fun q hq => by rw [e _ (hP.nodes q (mem_range.1 hq))]

theorem int_congr (g h : ℝ → R) (e : ∀ s ∈ Set.Icc (0 : ℝ) 1, g s = h s) : ∫ s in (0 : ℝ)..1, g s = ∫ s in (0 : ℝ)..1, h s :=
  intervalIntegral.integral_congr fun s hs => e s (by rwa [Set.uIcc_of_le zero_le_one] at hs)

/-- Quadrature error in four variables from the errors in one variable. -/
theorem quad_error (Q : Quad1 ℝ) (hP : Positive Q 2) (f : ℝ × ℝ → ℝ × ℝ → R) (hf : SmoothPair f) (ε : ℝ) (hε : 0 ≤ ε) (m : Nat) (D : ℝ)
    (hD : PartialBound m f D) (h1 : ∀ g : ℝ → R, DerivBound m g D → ‖quad Q g - ∫ s in (0 : ℝ)..1, g s‖ ≤ ε) :
    ‖quadSquare Q (fun y => quadSquare Q fun z => f y z) - integral4 f‖ ≤ 15 * ε := by
  obtain ⟨g, hg, hfg⟩ := hf
  let cl : ℝ → ℝ := fun s => max 0 (min 1 s)
  have clc : Continuous cl := by fun_prop
  have cl0 : ∀ s, 0 ≤ cl s ∧ cl s ≤ 1 := fun s => ⟨le_max_left _ _, max_le zero_le_one (min_le_left _ _)⟩
  have cle : ∀ s ∈ Set.Icc (0 : ℝ) 1, cl s = s := fun s hs => by
    show max 0 (min 1 s) = s
    rw [min_eq_right hs.2, max_eq_right hs.1]
  have clsq : ∀ x : ℝ × ℝ, ClosedSquare (cl x.1, cl x.2) := fun x => ⟨(cl0 _).1, (cl0 _).2, (cl0 _).1, (cl0 _).2⟩
  let F : ℝ × ℝ → ℝ × ℝ → R := fun y z => f (cl y.1, cl y.2) (cl z.1, cl z.2)
  have hFc : Continuous fun x : (ℝ × ℝ) × (ℝ × ℝ) => F x.1 x.2 := by
    have e : (fun x : (ℝ × ℝ) × (ℝ × ℝ) => F x.1 x.2) = g ∘ fun x => ((cl x.1.1, cl x.1.2), (cl x.2.1, cl x.2.2)) := by
      funext x; exact hfg _ _ (clsq _) (clsq _)
    rw [e, continuous_iff_continuousAt]
    intro x
    refine ContinuousAt.comp (hg _ _ (clsq x.1) (clsq x.2)).continuousAt (Continuous.continuousAt ?_)
    fun_prop
  have slice : ∀ (G H : ℝ → R), (∀ s ∈ Set.Icc (0 : ℝ) 1, G s = H s) → DerivBound m H D → ‖quad Q G - ∫ s in (0 : ℝ)..1, G s‖ ≤ ε := by
    intro G H e hH
    rw [quad_congr Q 2 hP G H e, int_congr G H e]
    exact h1 H hH
  have main := quad_four Q 2 (by norm_num) hP F hFc ε hε
    (fun b hb c hc d hd => slice _ (fun a => f (a, b) (c, d)) (fun a ha => by simp only [F, cle a ha, cle b hb, cle c hc, cle d hd])
      (hD (b, b) (c, d) ⟨hb.1, hb.2, hb.1, hb.2⟩ ⟨hc.1, hc.2, hd.1, hd.2⟩).1)
    (fun a ha c hc d hd => slice _ (fun b => f (a, b) (c, d)) (fun b hb => by simp only [F, cle a ha, cle b hb, cle c hc, cle d hd])
      (hD (a, a) (c, d) ⟨ha.1, ha.2, ha.1, ha.2⟩ ⟨hc.1, hc.2, hd.1, hd.2⟩).2.1)
    (fun a ha b hb d hd => slice _ (fun c => f (a, b) (c, d)) (fun c hc => by simp only [F, cle a ha, cle b hb, cle c hc, cle d hd])
      (hD (a, b) (d, d) ⟨ha.1, ha.2, hb.1, hb.2⟩ ⟨hd.1, hd.2, hd.1, hd.2⟩).2.2.1)
    (fun a ha b hb c hc => slice _ (fun d => f (a, b) (c, d)) (fun d hd => by simp only [F, cle a ha, cle b hb, cle c hc, cle d hd])
      (hD (a, b) (c, c) ⟨ha.1, ha.2, hb.1, hb.2⟩ ⟨hc.1, hc.2, hc.1, hc.2⟩).2.2.2)
  have e1 : quadSquare Q (fun y => quadSquare Q fun z => f y z) = quad Q fun a => quad Q fun b => quad Q fun c => quad Q fun d => F (a, b) (c, d) := by
    rw [quadSquare_eq]
    refine quad_congr Q 2 hP _ _ fun a ha => quad_congr Q 2 hP _ _ fun b hb => ?_
    rw [quadSquare_eq]
    refine quad_congr Q 2 hP _ _ fun c hc => quad_congr Q 2 hP _ _ fun d hd => ?_
    simp only [F, cle a ha, cle b hb, cle c hc, cle d hd]
  have e2 : integral4 f = integral4 F := by
    unfold integral4
    refine int_congr _ _ fun a ha => int_congr _ _ fun b hb => int_congr _ _ fun c hc => int_congr _ _ fun d hd => ?_
    simp only [F, cle a ha, cle b hb, cle c hc, cle d hd]
  rw [e1, e2]
  refine main.trans (le_of_eq (by ring))

theorem quad_rate (f : ℝ × ℝ → ℝ × ℝ → R) (hf : SmoothPair f) (k : Nat) : ∃ C, 0 ≤ C ∧ ∀ (Q : Quad1 ℝ) (d : Nat), Positive Q 2 →
    Props.ExactTo Q d → ‖quadSquare Q (fun y => quadSquare Q fun z => f y z) - integral4 f‖ ≤ C / ((d : ℝ) + 1) ^ k := by
  set m := 2 * k with hm
  obtain ⟨D, D0, hD⟩ := partial_bound f hf m
  obtain ⟨A, A0, hA⟩ := partial_bound f hf 0
  refine ⟨45 * max D A * (m + 1) ^ k, by positivity, fun Q d hP hQ => ?_⟩
  have key : ∀ B ≤ max D A, 0 ≤ B → ‖quadSquare Q (fun y => quadSquare Q fun z => f y z) - integral4 f‖ ≤
      15 * (3 * (B * ((m + 1) / ((d : ℝ) + 1)) ^ k)) →
      ‖quadSquare Q (fun y => quadSquare Q fun z => f y z) - integral4 f‖ ≤ 45 * max D A * (m + 1) ^ k / ((d : ℝ) + 1) ^ k := by
    intro B hB B0 h
    refine h.trans ?_
    rw [div_pow]
    calc 15 * (3 * (B * ((m + 1) ^ k / ((d : ℝ) + 1) ^ k))) ≤ 15 * (3 * (max D A * ((m + 1) ^ k / ((d : ℝ) + 1) ^ k))) := by gcongr
      _ = _ := by ring
  by_cases h : m ≤ d
  · refine key D (le_max_left _ _) D0 (quad_error Q hP f hf _ (by positivity) m D hD fun g hg => (quad_jackson Q 2 hP d m hQ h g D hg).trans ?_)
    rw [show (1 + 2 : ℝ) = 3 by norm_num]
    gcongr
    exact rate_aux _ ((d : ℝ) + 1) m k hm (by have : (m : ℝ) ≤ d := by exact_mod_cast h
                                              linarith) rfl D D0
  · refine key A (le_max_right _ _) A0 (quad_error Q hP f hf _ (by positivity) 0 A hA fun g hg => (quad_trivial Q 2 hP g A A0 (fun s hs => by
      simpa using hg.2 s hs)).trans ?_)
    rw [show (1 + 2 : ℝ) = 3 by norm_num]
    gcongr
    refine le_mul_of_one_le_right A0 (one_le_pow₀ ?_)
    rw [le_div_iff₀ (by positivity), one_mul]
    have : (d : ℝ) ≤ m := by exact_mod_cast (not_le.1 h).le
    linarith

theorem quad_bounded (f : ℝ × ℝ → ℝ × ℝ → R) (hf : SmoothPair f) : ∃ C, 0 ≤ C ∧ ∀ (Q : Quad1 ℝ), Positive Q 2 →
    ‖quadSquare Q (fun y => quadSquare Q fun z => f y z) - integral4 f‖ ≤ C := by
  obtain ⟨A, A0, hA⟩ := partial_bound f hf 0
  exact ⟨15 * (3 * A), by positivity, fun Q hP => quad_error Q hP f hf _ (by positivity) 0 A hA fun g hg => (quad_trivial Q 2 hP g A A0 (fun s hs => by
    simpa using hg.2 s hs)).trans (le_of_eq (by ring))⟩

end Bembel.Interpol
