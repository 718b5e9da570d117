import Verif.Props.Sphericals
import Mathlib.Analysis.Calculus.Deriv.Polynomial
import Mathlib.Analysis.Calculus.FDeriv.Pow
import Mathlib.Analysis.Calculus.FDeriv.Mul
import Mathlib.Analysis.Calculus.FDeriv.Add
import Mathlib.Analysis.Complex.Basic
/-!
# Property theorems C55: gradients of spherical harmonics
-/

namespace Bembel.Props
open Spec Sph Polynomial

theorem proj_deriv (i : Fin 3) (x : V3) : HasFDerivAt (fun y : V3 => y i) (EuclideanSpace.proj i : V3 →L[ℝ] ℝ) x :=
  (EuclideanSpace.proj (𝕜 := ℝ) i).hasFDerivAt

theorem complex_deriv (k : Nat) (x : V3) : ∃ L : V3 →L[ℝ] ℂ, HasFDerivAt (fun y : V3 => ((y 0 : ℂ) + y 1 * Complex.I) ^ k) L x ∧
    ∀ v, L v = k * ((x 0 : ℂ) + x 1 * Complex.I) ^ (k - 1) * (v 0 + v 1 * Complex.I) := by
  have h0 : HasFDerivAt (fun y : V3 => ((y 0 : ℝ) : ℂ)) (Complex.ofRealCLM.comp (EuclideanSpace.proj 0 : V3 →L[ℝ] ℝ)) x :=
    Complex.ofRealCLM.hasFDerivAt.comp x (proj_deriv 0 x)
  have h1 : HasFDerivAt (fun y : V3 => ((y 1 : ℝ) : ℂ)) (Complex.ofRealCLM.comp (EuclideanSpace.proj 1 : V3 →L[ℝ] ℝ)) x :=
    Complex.ofRealCLM.hasFDerivAt.comp x (proj_deriv 1 x)
  refine ⟨_, (h0.add (h1.mul_const Complex.I)).pow k, fun v => ?_⟩
  simp
  ring

theorem cr_deriv (k : Nat) (x : V3) : ∃ L : V3 →L[ℝ] ℝ, HasFDerivAt (fun y : V3 => cr (y 0) (y 1) k) L x ∧
    ∀ v, L v = k * (cr (x 0) (x 1) (k - 1) * v 0 - ci (x 0) (x 1) (k - 1) * v 1) := by
  obtain ⟨L, h1, h2⟩ := complex_deriv k x
  refine ⟨Complex.reCLM.comp L, Complex.reCLM.hasFDerivAt.comp x h1, fun v => ?_⟩
  rw [ContinuousLinearMap.comp_apply, h2]
  unfold cr ci
  generalize ((x 0 : ℂ) + x 1 * Complex.I) ^ (k - 1) = w
  simp
  ring

theorem ci_deriv (k : Nat) (x : V3) : ∃ L : V3 →L[ℝ] ℝ, HasFDerivAt (fun y : V3 => ci (y 0) (y 1) k) L x ∧
    ∀ v, L v = k * (ci (x 0) (x 1) (k - 1) * v 0 + cr (x 0) (x 1) (k - 1) * v 1) := by
  obtain ⟨L, h1, h2⟩ := complex_deriv k x
  refine ⟨Complex.imCLM.comp L, Complex.imCLM.hasFDerivAt.comp x h1, fun v => ?_⟩
  rw [ContinuousLinearMap.comp_apply, h2]
  unfold cr ci
  generalize ((x 0 : ℂ) + x 1 * Complex.I) ^ (k - 1) = w
  simp
  ring

theorem q_deriv (n m : Nat) (x : V3) : ∃ L : V3 →L[ℝ] ℝ, HasFDerivAt (fun y : V3 => q n m (y 2)) L x ∧
    ∀ v, L v = sphericalNorm n m * legendreDeriv n (m + 1) (x 2) * v 2 := by
  have h1 : HasDerivAt (fun t => q n m t) (sphericalNorm n m * legendreDeriv n (m + 1) (x 2)) (x 2) := by
    unfold q legendreDeriv
    rw [Function.iterate_succ_apply']
    exact ((derivative^[m] (legendre n)).hasDerivAt (x 2)).const_mul _
  refine ⟨_, HasDerivAt.comp_hasFDerivAt (h₂ := fun t => q n m t) x h1 (proj_deriv 2 x), fun v => ?_⟩
  simp [mul_comm]

/-- Partial derivatives of the real part of a spherical harmonic, extended as a polynomial. -/
theorem harmonicPos_deriv (n m : Nat) (x : V3) : ∃ L : V3 →L[ℝ] ℝ, HasFDerivAt (fun y : V3 => (harmonicPos n m y).re) L x ∧
    ∀ v, L v = q n m (x 2) * m * cr (x 0) (x 1) (m - 1) * v 0 - q n m (x 2) * m * ci (x 0) (x 1) (m - 1) * v 1 +
      sphericalNorm n m * legendreDeriv n (m + 1) (x 2) * cr (x 0) (x 1) m * v 2 := by
  simp only [harmonicPos_re]
  obtain ⟨L1, a1, b1⟩ := q_deriv n m x
  obtain ⟨L2, a2, b2⟩ := cr_deriv m x
  refine ⟨_, a1.mul a2, fun v => ?_⟩
  simp only [add_apply, smul_apply, smul_eq_mul, b1, b2]
  ring

/-! ## gradients of the series -/

/-- The pair used for the gradient of degree `n` and order `m`. -/
noncomputable def dd (x : V3) (n m : Nat) : Z := zz (cr (x 0) (x 1) (m - 1)) (ci (x 0) (x 1) (m - 1)) n m (x 2)

/-- The root of the third component. -/
noncomputable def rt (n m : Nat) : ℝ := Real.sqrt (((n + m : Nat) : ℝ) * ((n - m + 1 : Nat) : ℝ))

/-- The summand of the degree `m + k` and order `m`. -/
noncomputable def dterm (W : Nat → ℝ) (cs : List ℝ) (x : V3) (m k : Nat) : T3 :=
  (2 * m * (W (m + k) * cs.getD ((m + k) * (m + k + 1) + m) 0 * (dd x (m + k) m).1),
   -(2 * m * (W (m + k) * cs.getD ((m + k) * (m + k + 1) + m) 0 * (dd x (m + k) m).2)),
   fac (m - 1) * rt (m + k) m * (W (m + k) * cs.getD ((m + k) * (m + k + 1) + (m - 1)) 0 * (dd x (m + k) m).1))

theorem series_deriv (N : Nat) (hN : 1 ≤ N) (W : Nat → ℝ) (cs : List ℝ) (x : V3) : ∃ L : V3 →L[ℝ] ℝ,
    HasFDerivAt (fun y => (harmonicSeries N W (fun n m => coefficient cs n |m|) y).re) L x ∧
    ∀ v, L v = (∑ j ∈ Finset.range (N - 1), ∑ k ∈ Finset.range (N - (1 + j)), dterm W cs x (1 + j) k).1 * v 0 +
      (∑ j ∈ Finset.range (N - 1), ∑ k ∈ Finset.range (N - (1 + j)), dterm W cs x (1 + j) k).2.1 * v 1 +
      (∑ j ∈ Finset.range (N - 1), ∑ k ∈ Finset.range (N - (1 + j)), dterm W cs x (1 + j) k).2.2 * v 2 := by
  rw [coef_abs]
  have e : ∀ y, (harmonicSeries N W (fun n m => cs.getD (n * (n + 1) + m.natAbs) 0) y).re =
      ∑ j ∈ Finset.range N, ∑ k ∈ Finset.range (N - j), fac j * (W (j + k) * cs.getD ((j + k) * (j + k + 1) + j) 0 * (harmonicPos (j + k) j y).re) := by
    intro y
    rw [series_eq N W (fun n j => cs.getD (n * (n + 1) + j) 0) y, Complex.ofReal_re]
  simp only [e]
  choose L h1 h2 using fun n m => harmonicPos_deriv n m x
  refine ⟨_, HasFDerivAt.fun_sum fun j _ => HasFDerivAt.fun_sum fun k _ => ((h1 (j + k) j).const_mul _).const_mul _, fun v => ?_⟩
  simp only [sum_apply, smul_apply, smul_eq_mul, h2]
  simp only [Prod.fst_sum, Prod.snd_sum, dterm, dd, zz]
  obtain ⟨M, rfl⟩ : ∃ M, N = M + 1 := ⟨N - 1, by omega⟩
  rw [Nat.add_sub_cancel]
  have s0 : ∑ j ∈ Finset.range (M + 1), ∑ k ∈ Finset.range (M + 1 - j), fac j * (W (j + k) * cs.getD ((j + k) * (j + k + 1) + j) 0 *
      (q (j + k) j (x 2) * j * cr (x 0) (x 1) (j - 1) * v 0 - q (j + k) j (x 2) * j * ci (x 0) (x 1) (j - 1) * v 1)) =
      ∑ j ∈ Finset.range M, ∑ k ∈ Finset.range (M + 1 - (1 + j)), 2 * ((1 + j : Nat) : ℝ) * (W (1 + j + k) * cs.getD ((1 + j + k) * (1 + j + k + 1) + (1 + j)) 0 *
      (q (1 + j + k) (1 + j) (x 2) * cr (x 0) (x 1) (1 + j - 1) * v 0 - q (1 + j + k) (1 + j) (x 2) * ci (x 0) (x 1) (1 + j - 1) * v 1)) := by
    rw [Finset.sum_range_succ']
    have z : ∑ k ∈ Finset.range (M + 1 - 0), fac 0 * (W (0 + k) * cs.getD ((0 + k) * (0 + k + 1) + 0) 0 *
      (q (0 + k) 0 (x 2) * (0 : Nat) * cr (x 0) (x 1) (0 - 1) * v 0 - q (0 + k) 0 (x 2) * (0 : Nat) * ci (x 0) (x 1) (0 - 1) * v 1)) = 0 := by
      refine Finset.sum_eq_zero fun k _ => ?_
      simp
    rw [z, add_zero]
    refine Finset.sum_congr rfl fun j _ => ?_
    rw [show j + 1 = 1 + j by ring]
    refine Finset.sum_congr rfl fun k _ => ?_
    have : fac (1 + j) = 2 := by unfold fac; rw [if_neg (by omega)]
    rw [this]; ring
  have s2 : ∑ j ∈ Finset.range (M + 1), ∑ k ∈ Finset.range (M + 1 - j), fac j * (W (j + k) * cs.getD ((j + k) * (j + k + 1) + j) 0 *
      (sphericalNorm (j + k) j * legendreDeriv (j + k) (j + 1) (x 2) * cr (x 0) (x 1) j * v 2)) =
      ∑ j ∈ Finset.range M, ∑ k ∈ Finset.range (M + 1 - (1 + j)), fac (1 + j - 1) * rt (1 + j + k) (1 + j) * (W (1 + j + k) *
        cs.getD ((1 + j + k) * (1 + j + k + 1) + (1 + j - 1)) 0 * (q (1 + j + k) (1 + j) (x 2) * cr (x 0) (x 1) (1 + j - 1))) * v 2 := by
    rw [Finset.sum_range_succ]
    have z : ∑ k ∈ Finset.range (M + 1 - M), fac M * (W (M + k) * cs.getD ((M + k) * (M + k + 1) + M) 0 *
      (sphericalNorm (M + k) M * legendreDeriv (M + k) (M + 1) (x 2) * cr (x 0) (x 1) M * v 2)) = 0 := by
      refine Finset.sum_eq_zero fun k hk => ?_
      have : k = 0 := by have := Finset.mem_range.1 hk; omega
      subst this
      rw [D_zero (by omega)]; ring
    rw [z, add_zero]
    refine Finset.sum_congr rfl fun j hj => ?_
    rw [show M + 1 - j = M + 1 - (1 + j) + 1 by have := Finset.mem_range.1 hj; omega, Finset.sum_range_succ']
    rw [D_zero (show j + 0 < j + 1 by omega)]
    simp only [mul_zero, zero_mul, add_zero]
    refine Finset.sum_congr rfl fun k _ => ?_
    rw [show j + (k + 1) = 1 + j + k by ring, show 1 + j - 1 = j by omega]
    have hn := norm_order (1 + j + k) (1 + j) (by omega) (by omega)
    rw [show 1 + j - 1 = j by omega] at hn
    rw [hn, show j + 1 = 1 + j by ring]
    unfold rt q
    ring
  simp only [@mul_add ℝ, Finset.sum_add_distrib]
  rw [s0, s2]
  congr 1
  · rw [Finset.sum_mul, Finset.sum_mul, ← Finset.sum_add_distrib]
    refine Finset.sum_congr rfl fun j _ => ?_
    rw [Finset.sum_mul, Finset.sum_mul, ← Finset.sum_add_distrib]
    refine Finset.sum_congr rfl fun k _ => ?_
    ring
  · rw [Finset.sum_mul]
    refine Finset.sum_congr rfl fun j _ => ?_
    rw [Finset.sum_mul]

/-! ## the loops -/

theorem dd_start (x : V3) : ((Real.sqrt (0.375 / Real.pi), 0) : Z) = dd x 1 1 := by
  unfold dd zz
  rw [Nat.sub_self, cr_zero, ci_zero, mul_zero, mul_one, q_diag, q_zero]
  have := Real.pi_pos
  congr 1
  rw [show (0.375 / Real.pi : ℝ) = (0.5 / Real.sqrt Real.pi) ^ 2 * ((2 * (0 : Nat) + 3) / (2 * (0 : Nat) + 2)) by
    rw [div_pow, Real.sq_sqrt this.le]; push_cast; field_simp; norm_num, Real.sqrt_mul (by positivity), Real.sqrt_sq (by positivity), mul_comm]

theorem threeTerm_dd (x : V3) (n m : Nat) (h : m ≤ n) : threeTerm (x 2) (n + 2) m (dd x n m) (dd x (n + 1) m) = dd x (n + 2) m :=
  threeTerm_zz _ _ _ _ _ h

theorem second_dd (x : V3) (m : Nat) : second (x 2) m (dd x m m) = dd x (m + 1) m := second_zz _ _ _ _

theorem nextOrder_dd (x : V3) (m : Nat) (h : 1 ≤ m) : nextOrder x m (dd x m m) = dd x (m + 1) (m + 1) := by
  unfold dd
  rw [nextOrder_zz, show m - 1 + 1 = m + 1 - 1 by omega]

theorem rt_diag (m : Nat) : rt m m = Real.sqrt (2 * m) := by
  unfold rt; rw [Nat.sub_self]; congr 1; push_cast; ring

theorem rt_sub (m : Nat) : rt (m + 1) m = Real.sqrt (4 * m + 2) := by
  unfold rt; rw [show m + 1 - m + 1 = 2 by omega]; congr 1; push_cast; ring

theorem sum_split' {M : Type} [AddCommGroup M] {N j : Nat} (h : j + 1 < N) (f : Nat → M) : ∑ k ∈ Finset.range (N - j), f k =
    f 0 + f 1 + ∑ k ∈ Finset.range (N - (j + 2)), f (k + 2) := by
  rw [show N - j = N - (j + 2) + 1 + 1 by omega, Finset.sum_range_succ', Finset.sum_range_succ']
  simp only [Nat.zero_add]; abel

theorem dsphInner_eq (x : V3) (cs : List ℝ) (deg m : Nat) (hcs : deg * deg ≤ cs.length) (r : T3) :
    (List.range (deg - (m + 2))).foldlM (fun s k => dsphInner x cs m (fac (m - 1)) s (m + 2 + k)) (r, dd x m m, dd x (m + 1) m) =
      some (r + ∑ k ∈ Finset.range (deg - (m + 2)), dterm (fun _ => 1) cs x m (k + 2),
        dd x (m + (deg - (m + 2))) m, dd x (m + (deg - (m + 2)) + 1) m) := by
  have := foldlM_range_states (fun s k => dsphInner x cs m (fac (m - 1)) s (m + 2 + k))
    (fun k => (r + ∑ i ∈ Finset.range k, dterm (fun _ => 1) cs x m (i + 2), dd x (m + k) m, dd x (m + k + 1) m)) (deg - (m + 2)) (by
      intro k hk
      have hi := idx_lt (n := m + 2 + k) (j := m) (N := deg) (by omega) (by omega)
      have hi' := idx_lt (n := m + 2 + k) (j := m - 1) (N := deg) (by omega) (by omega)
      unfold dsphInner
      simp only [get_of_lt cs _ (hi.trans_le hcs), get_of_lt cs _ (hi'.trans_le hcs), Option.bind_eq_bind, Option.bind_some]
      have e : threeTerm (x 2) (m + 2 + k) m (dd x (m + k) m) (dd x (m + k + 1) m) = dd x (m + 2 + k) m := by
        rw [show m + 2 + k = m + k + 2 by ring]
        exact threeTerm_dd _ _ _ (by omega)
      rw [e, Finset.sum_range_succ]
      unfold dterm rt
      rw [show m + (k + 1) = m + k + 1 by ring, show m + (k + 2) = m + 2 + k by ring, show m + k + 1 + 1 = m + 2 + k by ring]
      congr 2
      refine Prod.ext ?_ (Prod.ext ?_ ?_) <;> simp only [Prod.fst_add, Prod.snd_add] <;> ring)
  simpa using this

theorem dsphOuter_eq (x : V3) (cs : List ℝ) (deg m : Nat) (hcs : deg * deg ≤ cs.length) (h1 : 1 ≤ m) (hm : m + 1 < deg) (r : T3) :
    dsphOuter x cs deg (r, dd x m m) m =
      some (r + ∑ k ∈ Finset.range (deg - m), dterm (fun _ => 1) cs x m k, dd x (m + 1) (m + 1)) := by
  unfold dsphOuter
  have i1 := idx_lt (n := m) (j := m) (N := deg) le_rfl (by omega)
  have i2 := idx_lt (n := m + 1) (j := m) (N := deg) (by omega) (by omega)
  have i3 := idx_lt (n := m) (j := m - 1) (N := deg) (by omega) (by omega)
  have i4 := idx_lt (n := m + 1) (j := m - 1) (N := deg) (by omega) (by omega)
  have i5 : m * (m + 1) - (m - 1) < deg * deg := lt_of_le_of_lt (by omega) i3
  have i6 : (m + 1) * (m + 2) - (m - 1) < deg * deg := lt_of_le_of_lt ((Nat.sub_le _ _).trans (Nat.le_add_right _ _)) i4
  have hf : (if m = 1 then (1 : ℝ) else 2) = fac (m - 1) := by
    unfold fac; by_cases h : m = 1
    · rw [if_pos h, if_pos (by omega)]
    · rw [if_neg h, if_neg (by omega)]
  simp only [get_of_lt cs _ (i1.trans_le hcs), get_of_lt cs _ (i2.trans_le hcs), get_of_lt cs _ (i3.trans_le hcs),
    get_of_lt cs _ (i4.trans_le hcs), get_of_lt cs _ (i5.trans_le hcs), get_of_lt cs _ (i6.trans_le hcs), Option.bind_eq_bind, Option.bind_some,
    second_dd, nextOrder_dd x m h1, hf]
  rw [dsphInner_eq x cs deg m hcs]
  simp only [Option.bind_some]
  rw [sum_split' hm]
  unfold dterm
  simp only [Nat.add_zero, rt_diag, rt_sub]
  congr 2
  rw [← add_assoc]
  congr 1
  have him : m = 1 → (dd x m m).2 = 0 ∧ (dd x (m + 1) m).2 = 0 := by
    rintro rfl
    unfold dd zz
    simp [ci_zero]
  refine Prod.ext ?_ (Prod.ext ?_ ?_) <;> simp only [Prod.fst_add, Prod.snd_add]
  · ring
  · ring
  · by_cases h : m = 1
    · rw [if_pos h, (him h).1, (him h).2]; ring
    · rw [if_neg h]; ring

theorem idx_neg (cs : List ℝ) (d : Nat) : cs.getD ((d + 2) * (d + 2 - 1) - (d + 2 - 2)) 0 = coefficient cs (d + 1) (-(d : Int)) := by
  unfold coefficient
  congr 1
  rw [show d + 2 - 1 = d + 1 by omega, show d + 2 - 2 = d by omega]
  have : ((d + 1 : Nat) : Int) * (d + 1 : Nat) + (d + 1 : Nat) + -(d : Int) = (((d + 2) * (d + 1) - d : Nat) : Int) := by
    rw [Nat.cast_sub (by nlinarith)]; push_cast; ring
  rw [this, Int.toNat_natCast]

theorem idx_pos (cs : List ℝ) (n j : Nat) : cs.getD (n * (n + 1) + j) 0 = coefficient cs n (j : Int) := by
  have := congrFun (congrFun (coef_abs cs) n) (j : Int)
  simp only [Nat.abs_cast] at this
  rw [this, Int.natAbs_natCast]

/-- The derivative of `Y_n^{n-1}` in the direction of the third axis, `n = d + 1`. -/
noncomputable def lastSlope (d : Nat) (x : V3) : ℂ :=
  (sphericalNorm (d + 1) d * legendreDeriv (d + 1) (d + 1) (x 2) : ℝ) * (x 0 + x 1 * Complex.I) ^ d

theorem lastSlope_re (d : Nat) (x : V3) : Real.sqrt (2 * ((d + 1 : Nat) : ℝ)) * (dd x (d + 1) (d + 1)).1 = (lastSlope d x).re := by
  unfold lastSlope
  rw [Complex.re_ofReal_mul]
  have hn := norm_order (d + 1) (d + 1) (by omega) le_rfl
  have := rt_diag (d + 1)
  unfold rt at this
  rw [this] at hn
  rw [show d + 1 - 1 = d by omega] at hn
  rw [hn]
  unfold dd zz q cr
  rw [show d + 1 - 1 = d by omega]
  ring

theorem lastSlope_im (d : Nat) (x : V3) : Real.sqrt (2 * ((d + 1 : Nat) : ℝ)) * (dd x (d + 1) (d + 1)).2 = (lastSlope d x).im := by
  unfold lastSlope
  rw [Complex.im_ofReal_mul]
  have hn := norm_order (d + 1) (d + 1) (by omega) le_rfl
  have := rt_diag (d + 1)
  unfold rt at this
  rw [this] at hn
  rw [show d + 1 - 1 = d by omega] at hn
  rw [hn]
  unfold dd zz q ci
  rw [show d + 1 - 1 = d by omega]
  ring

/-- C55: on the unit sphere, with `deg^2` coefficients, `deg ≥ 2`, the gradient of the spherical harmonics is the gradient of the
series of degree below `deg` (extended as a polynomial), except for the third component, which has the additional terms
`c_{n,n-1} Re ∂_3 Y_n^{n-1}` if `n = deg - 1 = 1`, and `2 c_{n,1-n} Im ∂_3 Y_n^{n-1}`. -/
theorem C55_dsphericals (x : V3) (cs : List ℝ) (d : Nat) (hx : ‖x‖ = 1) (hcs : (d + 2) * (d + 2) ≤ cs.length) : ∃ dr : T3,
    evaluateDsphericals x cs (d + 2) = some dr ∧ ∃ L : V3 →L[ℝ] ℝ,
      HasFDerivAt (fun y => (harmonicSeries (d + 2) (fun _ => 1) (fun n m => coefficient cs n |m|) y).re) L x ∧
      ∀ v : V3, dr.1 * v 0 + dr.2.1 * v 1 + dr.2.2 * v 2 = L v + ((if d = 0 then 1 else 0) * coefficient cs (d + 1) d * (lastSlope d x).re +
        2 * coefficient cs (d + 1) (-(d : Int)) * (lastSlope d x).im) * v 2 := by
  obtain ⟨L, hL, hv⟩ := series_deriv (d + 2) (by omega) (fun _ => 1) cs x
  unfold evaluateDsphericals
  rw [if_neg (by rw [hx]; norm_num)]
  simp only [show ¬ d + 2 = 1 by omega, show ¬ d + 2 = 0 by omega, if_false]
  have hloop := foldlM_range_states (fun s k => dsphOuter x cs (d + 2) s (1 + k))
    (fun m => (∑ j ∈ Finset.range m, ∑ k ∈ Finset.range (d + 2 - (1 + j)), dterm (fun _ => 1) cs x (1 + j) k, dd x (1 + m) (1 + m))) (d + 2 - 2) (by
      intro m hm
      rw [dsphOuter_eq x cs (d + 2) (1 + m) hcs (by omega) (by omega), Finset.sum_range_succ, add_assoc])
  simp only [Finset.sum_range_zero, Nat.add_zero, ← dd_start, show d + 2 - 2 = d by omega] at hloop
  have hl := idx_lt (n := d + 1) (j := d + 1) (N := d + 2) le_rfl (by omega)
  have hl2 := idx_lt (n := d + 1) (j := d) (N := d + 2) (by omega) (by omega)
  have e1 : (d + 2 - 1) * (d + 2 + 1) = (d + 1) * (d + 1 + 1) + (d + 1) := by rw [show d + 2 - 1 = d + 1 by omega]; ring
  have e2 : (d + 2) * (d + 2 - 1) + (d + 2 - 2) = (d + 1) * (d + 1 + 1) + d := by
    rw [show d + 2 - 1 = d + 1 by omega, show d + 2 - 2 = d by omega]; ring
  have hl3 : (d + 2) * (d + 2 - 1) - (d + 2 - 2) < (d + 2) * (d + 2) :=
    lt_of_le_of_lt (Nat.sub_le _ _) (by rw [show d + 2 - 1 = d + 1 by omega]; nlinarith)
  have hz : ((0, 0, 0) : T3) = 0 := rfl
  rw [hz, show d + 2 - 2 = d by omega, hloop]
  simp only [Option.bind_eq_bind, Option.bind_some]
  rw [← show d + 2 - 2 = d by omega] at hl2
  rw [e1, get_of_lt cs _ (hl.trans_le hcs)]
  simp only [Option.bind_some]
  have e2' : (d + 2) * (d + 2 - 1) + d = (d + 1) * (d + 1 + 1) + d := by rw [show d + 2 - 1 = d + 1 by omega]; ring
  have hl2' := idx_lt (n := d + 1) (j := d) (N := d + 2) (by omega) (by omega)
  rw [show d + 2 - 2 = d by omega] at hl3
  rw [e2', get_of_lt cs _ (hl2'.trans_le hcs), get_of_lt cs _ (hl3.trans_le hcs)]
  simp only [Option.bind_some]
  refine ⟨_, rfl, L, hL, fun v => ?_⟩
  have i1 := idx_neg cs d
  rw [show d + 2 - 2 = d by omega] at i1
  rw [hv, i1, idx_pos, idx_pos, ← lastSlope_re, ← lastSlope_im, show d + 2 - 1 = d + 1 by omega]
  rw [Finset.sum_range_succ, show d + 2 - (1 + d) = 1 by omega, Finset.sum_range_one]
  simp only [Prod.fst_add, Prod.snd_add]
  unfold dterm
  rw [show 1 + d + 0 = d + 1 by ring, show 1 + d = d + 1 by ring, show d + 1 - 1 = d by omega, rt_diag, idx_pos, idx_pos]
  have hfd : fac d = 2 - (if d = 0 then 1 else 0) := by unfold fac; split <;> norm_num
  rw [hfd]
  simp only []
  push_cast
  ring

/-! ## solid harmonics -/

/-- The documented weight of the gradient of degree `n`: `|x|^(n-3)`. -/
noncomputable def gradWeight (norm : ℝ) (n : Nat) : ℝ := norm ^ ((n : Int) - 3)

theorem gradWeight_succ (norm : ℝ) (h : norm ≠ 0) (n : Nat) : gradWeight norm n * norm = gradWeight norm (n + 1) := by
  unfold gradWeight
  rw [← zpow_add_one₀ h]; congr 1; push_cast; ring

theorem dsolidInner_eq (x : V3) (norm : ℝ) (hnorm : norm ≠ 0) (cs : List ℝ) (deg m : Nat) (hcs : deg * deg ≤ cs.length) (r : T3) :
    (List.range (deg - (m + 2))).foldlM (fun s k => dsolidInner x norm cs m (fac (m - 1)) s (m + 2 + k))
        (r, gradWeight norm (m + 1), dd x m m, dd x (m + 1) m) =
      some (r + ∑ k ∈ Finset.range (deg - (m + 2)), dterm (gradWeight norm) cs x m (k + 2), gradWeight norm (m + (deg - (m + 2)) + 1),
        dd x (m + (deg - (m + 2))) m, dd x (m + (deg - (m + 2)) + 1) m) := by
  have := foldlM_range_states (fun s k => dsolidInner x norm cs m (fac (m - 1)) s (m + 2 + k))
    (fun k => (r + ∑ i ∈ Finset.range k, dterm (gradWeight norm) cs x m (i + 2), gradWeight norm (m + k + 1),
      dd x (m + k) m, dd x (m + k + 1) m)) (deg - (m + 2)) (by
      intro k hk
      have hi := idx_lt (n := m + 2 + k) (j := m) (N := deg) (by omega) (by omega)
      have hi' := idx_lt (n := m + 2 + k) (j := m - 1) (N := deg) (by omega) (by omega)
      unfold dsolidInner
      simp only [get_of_lt cs _ (hi.trans_le hcs), get_of_lt cs _ (hi'.trans_le hcs), Option.bind_eq_bind, Option.bind_some]
      have e : threeTerm (x 2) (m + 2 + k) m (dd x (m + k) m) (dd x (m + k + 1) m) = dd x (m + 2 + k) m := by
        rw [show m + 2 + k = m + k + 2 by ring]
        exact threeTerm_dd _ _ _ (by omega)
      rw [e, Finset.sum_range_succ, gradWeight_succ norm hnorm]
      unfold dterm rt
      rw [show m + (k + 1) = m + k + 1 by ring, show m + (k + 2) = m + 2 + k by ring, show m + k + 1 + 1 = m + 2 + k by ring]
      congr 2
      refine Prod.ext ?_ (Prod.ext ?_ ?_) <;> simp only [Prod.fst_add, Prod.snd_add] <;> ring)
  simpa using this

theorem dsolidOuter_eq (x : V3) (norm : ℝ) (hnorm : norm ≠ 0) (cs : List ℝ) (deg m : Nat) (hcs : deg * deg ≤ cs.length) (h1 : 1 ≤ m)
    (hm : m + 1 < deg) (r : T3) (w : ℝ) : dsolidOuter x norm cs deg (r, w, dd x m m) m =
      some (r + ∑ k ∈ Finset.range (deg - m), dterm (gradWeight norm) cs x m k, gradWeight norm (deg - 1), dd x (m + 1) (m + 1)) := by
  unfold dsolidOuter
  have i1 := idx_lt (n := m) (j := m) (N := deg) le_rfl (by omega)
  have i2 := idx_lt (n := m + 1) (j := m) (N := deg) (by omega) (by omega)
  have i3 := idx_lt (n := m) (j := m - 1) (N := deg) (by omega) (by omega)
  have i4 := idx_lt (n := m + 1) (j := m - 1) (N := deg) (by omega) (by omega)
  have i5 : m * (m + 1) - (m - 1) < deg * deg := lt_of_le_of_lt (by omega) i3
  have i6 : (m + 1) * (m + 2) - (m - 1) < deg * deg := lt_of_le_of_lt ((Nat.sub_le _ _).trans (Nat.le_add_right _ _)) i4
  have hf : (if m = 1 then (1 : ℝ) else 2) = fac (m - 1) := by
    unfold fac; by_cases h : m = 1
    · rw [if_pos h, if_pos (by omega)]
    · rw [if_neg h, if_neg (by omega)]
  have hw : powInt norm ((m : Int) - 3) = gradWeight norm m := C57_power _ _
  have hw1 := gradWeight_succ norm hnorm m
  simp only [get_of_lt cs _ (i1.trans_le hcs), get_of_lt cs _ (i2.trans_le hcs), get_of_lt cs _ (i3.trans_le hcs),
    get_of_lt cs _ (i4.trans_le hcs), get_of_lt cs _ (i5.trans_le hcs), get_of_lt cs _ (i6.trans_le hcs), Option.bind_eq_bind, Option.bind_some,
    second_dd, nextOrder_dd x m h1, hf, hw, hw1]
  rw [dsolidInner_eq x norm hnorm cs deg m hcs]
  simp only [Option.bind_some]
  rw [sum_split' hm, show m + (deg - (m + 2)) + 1 = deg - 1 by omega]
  unfold dterm
  simp only [Nat.add_zero, rt_diag, rt_sub, ← hw1]
  congr 2
  rw [← add_assoc]
  congr 1
  have him : m = 1 → (dd x m m).2 = 0 ∧ (dd x (m + 1) m).2 = 0 := by
    rintro rfl
    unfold dd zz
    simp [ci_zero]
  refine Prod.ext ?_ (Prod.ext ?_ ?_) <;> simp only [Prod.fst_add, Prod.snd_add]
  · ring
  · ring
  · by_cases h : m = 1
    · rw [if_pos h, (him h).1, (him h).2]; ring
    · rw [if_neg h]; ring

/-- The gradient of `2 Re Y_n^n` in the plane of the first two axes, along `v`, `n = d + 2`. -/
noncomputable def lastPlane (d : Nat) (x v : V3) : ℝ :=
  2 * ((sphericalNorm (d + 2) (d + 2) * legendreDeriv (d + 2) (d + 2) (x 2) : ℝ) * ((d + 2 : Nat) * (x 0 + x 1 * Complex.I) ^ (d + 1)) *
    ((v 0 : ℂ) + v 1 * Complex.I)).re

/-- C55: away from the origin, with `deg^2` coefficients, `deg ≥ 3`, the gradients of the solid harmonics are the sums of the
documented series (weights `|x|^(n-3)`, gradients of the polynomial extensions at `x/|x|`), except that the last term is scaled with
`|x|^(deg-3)` instead of `|x|^(deg-4)` and that the third component has the additional term `2 |x|^(deg-3) c_{n,1-n} Im ∂_3 Y_n^{n-1}`. -/
theorem C55_dsolid (junk : ℝ) (x : V3) (hx : x ≠ 0) (cs : List ℝ) (d : Nat) (hcs : (d + 3) * (d + 3) ≤ cs.length) (y : V3)
    (hy : y = (1 / ‖x‖) • x) : ∃ dr : T3,
    evaluateDsolidSphericals junk x cs (d + 3) = some dr ∧ ∃ L : V3 →L[ℝ] ℝ,
      HasFDerivAt (fun z => (harmonicSeries (d + 3) (gradWeight ‖x‖) (fun n m => coefficient cs n |m|) z).re) L y ∧
      ∀ v : V3, dr.1 * v 0 + dr.2.1 * v 1 + dr.2.2 * v 2 = L v +
        (gradWeight ‖x‖ (d + 3) - gradWeight ‖x‖ (d + 2)) *
          (coefficient cs (d + 2) (d + 2 : Nat) * lastPlane d y v + 2 * coefficient cs (d + 2) (d + 1 : Nat) * (lastSlope (d + 1) y).re * v 2) +
        2 * gradWeight ‖x‖ (d + 3) * coefficient cs (d + 2) (-((d + 1 : Nat) : Int)) * (lastSlope (d + 1) y).im * v 2 := by
  have hn : ‖x‖ ≠ 0 := norm_ne_zero_iff.2 hx
  obtain ⟨L, hL, hv⟩ := series_deriv (d + 3) (by omega) (gradWeight ‖x‖) cs y
  unfold evaluateDsolidSphericals
  simp only [show ¬ d + 3 = 1 by omega, show ¬ d + 3 = 0 by omega, if_false, ← hy]
  have hloop := foldlM_range_states (fun s k => dsolidOuter y ‖x‖ cs (d + 3) s (1 + k))
    (fun m => (∑ j ∈ Finset.range m, ∑ k ∈ Finset.range (d + 3 - (1 + j)), dterm (gradWeight ‖x‖) cs y (1 + j) k,
      if m = 0 then junk else gradWeight ‖x‖ (d + 2), dd y (1 + m) (1 + m))) (d + 1) (by
      intro m hm
      rw [dsolidOuter_eq y ‖x‖ hn cs (d + 3) (1 + m) hcs (by omega) (by omega), Finset.sum_range_succ, add_assoc]
      simp)
  simp only [Finset.sum_range_zero, Nat.add_zero, ← dd_start, if_true] at hloop
  have hl := idx_lt (n := d + 2) (j := d + 2) (N := d + 3) le_rfl (by omega)
  have hl2 := idx_lt (n := d + 2) (j := d + 1) (N := d + 3) (by omega) (by omega)
  have e0 : d + 3 - 1 = d + 2 := by omega
  have e0' : d + 3 - 2 = d + 1 := by omega
  have e1 : (d + 2) * (d + 3 + 1) = (d + 2) * (d + 2 + 1) + (d + 2) := by ring
  have e2 : (d + 3) * (d + 2) + (d + 1) = (d + 2) * (d + 2 + 1) + (d + 1) := by ring
  have hl3 : (d + 3) * (d + 2) - (d + 1) < (d + 3) * (d + 3) := lt_of_le_of_lt (Nat.sub_le _ _) (by nlinarith)
  have hz : ((0, 0, 0) : T3) = 0 := rfl
  rw [e0, e0', hz, hloop]
  simp only [Option.bind_eq_bind, Option.bind_some]
  rw [e1, get_of_lt cs _ (hl.trans_le hcs)]
  simp only [Option.bind_some]
  rw [e2, get_of_lt cs _ (hl2.trans_le hcs), get_of_lt cs _ (hl3.trans_le hcs)]
  simp only [Option.bind_some, Nat.add_one_ne_zero, if_false]
  refine ⟨_, rfl, L, hL, fun v => ?_⟩
  have i1 := idx_neg cs (d + 1)
  rw [show d + 1 + 2 - 2 = d + 1 by omega, show d + 1 + 2 - 1 = d + 2 by omega, show d + 1 + 2 = d + 3 by ring,
    show d + 1 + 1 = d + 2 by ring] at i1
  rw [hv, i1, idx_pos, idx_pos, ← lastSlope_re, ← lastSlope_im, gradWeight_succ _ hn, e0]
  have hp : lastPlane d y v = 2 * (d + 2 : Nat) * ((dd y (d + 2) (d + 2)).1 * v 0 - (dd y (d + 2) (d + 2)).2 * v 1) := by
    unfold lastPlane dd zz q cr ci
    rw [show d + 2 - 1 = d + 1 by omega]
    generalize ((y 0 : ℂ) + y 1 * Complex.I) ^ (d + 1) = w
    generalize sphericalNorm (d + 2) (d + 2) * legendreDeriv (d + 2) (d + 2) (y 2) = a
    simp
    ring
  rw [hp]
  rw [Finset.sum_range_succ _ (d + 1), show d + 3 - (1 + (d + 1)) = 1 by omega, Finset.sum_range_one]
  simp only [Prod.fst_add, Prod.snd_add]
  unfold dterm
  rw [show 1 + (d + 1) + 0 = d + 2 by ring, show 1 + (d + 1) = d + 2 by ring, show d + 2 - 1 = d + 1 by omega, rt_diag, idx_pos, idx_pos]
  have hfd : fac (d + 1) = 2 := by unfold fac; rw [if_neg (by omega)]
  rw [hfd]
  simp only [show d + 1 + 1 = d + 2 by ring, show d + 2 + 1 = d + 3 by ring]
  ring

end Bembel.Props
