import Verif.Lemmas.Radial
import Verif.Lemmas.SphericalRec
import Verif.Props.SphericalTables
/-! # The solid harmonics are harmonic -/

namespace Bembel.Sph
open Spec Props
open scoped Topology

noncomputable section

/-- The standard basis. -/
def sb (i : Fin 3) : V3 := EuclideanSpace.single i 1

theorem sb_apply (i j : Fin 3) : sb i j = if j = i then 1 else 0 := by
  unfold sb; simp [Pi.single_apply]

theorem lap_eq (f : V3 → ℝ) (x : V3) (hf : ContDiffAt ℝ 2 f x) :
    Laplacian.laplacian f x = ∑ i, fderiv ℝ (fun z => fderiv ℝ f z (sb i)) x (sb i) := by
  rw [InnerProductSpace.laplacian_eq_iteratedFDeriv_orthonormalBasis _ (EuclideanSpace.basisFun (Fin 3) ℝ)]
  refine Finset.sum_congr rfl fun i _ => ?_
  have d1 : DifferentiableAt ℝ (fderiv ℝ f) x := (hf.fderiv_right (m := 1) (by norm_num)).differentiableAt (by norm_num)
  rw [iteratedFDeriv_two_apply]
  simp only [Matrix.cons_val_zero, Matrix.cons_val_one, EuclideanSpace.basisFun_apply]
  have := (d1.hasFDerivAt.clm_apply (hasFDerivAt_const (sb i) x)).fderiv
  rw [this]
  simp [sb]

/-- Product rule. -/
theorem lap_mul (f g : V3 → ℝ) (x : V3) (hf : ContDiffAt ℝ 2 f x) (hg : ContDiffAt ℝ 2 g x) :
    Laplacian.laplacian (fun z => f z * g z) x = Laplacian.laplacian f x * g x + f x * Laplacian.laplacian g x +
      2 * ∑ i, fderiv ℝ f x (sb i) * fderiv ℝ g x (sb i) := by
  rw [lap_eq _ x (hf.mul hg), lap_eq f x hf, lap_eq g x hg, Finset.sum_mul, Finset.mul_sum, Finset.mul_sum,
    ← Finset.sum_add_distrib, ← Finset.sum_add_distrib]
  refine Finset.sum_congr rfl fun i _ => ?_
  have e : (fun z => fderiv ℝ (fun z => f z * g z) z (sb i)) =ᶠ[𝓝 x] fun z => f z * fderiv ℝ g z (sb i) + g z * fderiv ℝ f z (sb i) := by
    filter_upwards [hf.eventually (by simp), hg.eventually (by simp)] with z h1 h2
    have hh : HasFDerivAt (fun z => f z * g z) _ z :=
      (h1.differentiableAt (by norm_num)).hasFDerivAt.mul (h2.differentiableAt (by norm_num)).hasFDerivAt
    rw [hh.fderiv]
    simp
  rw [e.fderiv_eq]
  have df := (hf.differentiableAt (by norm_num)).hasFDerivAt
  have dg := (hg.differentiableAt (by norm_num)).hasFDerivAt
  have d1 : DifferentiableAt ℝ (fun z => fderiv ℝ f z (sb i)) x :=
    ((hf.fderiv_right (m := 1) (by norm_num)).differentiableAt (by norm_num)).clm_apply (differentiableAt_const _)
  have d2 : DifferentiableAt ℝ (fun z => fderiv ℝ g z (sb i)) x :=
    ((hg.fderiv_right (m := 1) (by norm_num)).differentiableAt (by norm_num)).clm_apply (differentiableAt_const _)
  have this : HasFDerivAt (fun z => f z * fderiv ℝ g z (sb i) + g z * fderiv ℝ f z (sb i)) _ x :=
    (df.mul d2.hasFDerivAt).add (dg.mul d1.hasFDerivAt)
  rw [this.fderiv]
  simp only [ContinuousLinearMap.add_apply, ContinuousLinearMap.smul_apply, smul_eq_mul]
  ring

theorem lap_const_mul (c : ℝ) (f : V3 → ℝ) (x : V3) (hf : ContDiffAt ℝ 2 f x) :
    Laplacian.laplacian (fun z => c * f z) x = c * Laplacian.laplacian f x := by
  rw [lap_mul _ f x contDiffAt_const hf]
  simp [InnerProductSpace.laplacian_const]

theorem lap_sub' (f g : V3 → ℝ) (x : V3) (hf : ContDiffAt ℝ 2 f x) (hg : ContDiffAt ℝ 2 g x) :
    Laplacian.laplacian (fun z => f z - g z) x = Laplacian.laplacian f x - Laplacian.laplacian g x := hf.laplacian_sub hg

/-- A homogeneous harmonic function with its partial derivative in the third direction. -/
structure Solid (n : Nat) (U dU : V3 → ℝ) : Prop where
  smooth : ContDiff ℝ 2 U
  dz : ∀ x, fderiv ℝ U x (sb 2) = dU x
  euler : ∀ x, fderiv ℝ U x x = n * U x
  lap : ∀ x, Laplacian.laplacian U x = 0

theorem lap_coord (i : Fin 3) (x : V3) : Laplacian.laplacian (fun z : V3 => z i) x = 0 := by
  rw [lap_eq (fun z : V3 => z i) x (EuclideanSpace.proj (𝕜 := ℝ) i).contDiff.contDiffAt]
  refine Finset.sum_eq_zero fun j _ => ?_
  have : (fun z => fderiv ℝ (fun z : V3 => z i) z (sb j)) = fun _ => (sb j) i := by
    funext z; rw [(proj_deriv i z).fderiv]; rfl
  rw [this]; simp

theorem coord_smooth (i : Fin 3) : ContDiff ℝ 2 (fun z : V3 => z i) := (EuclideanSpace.proj (𝕜 := ℝ) i).contDiff

theorem lap_coord_mul (i : Fin 3) (f : V3 → ℝ) (x : V3) (hf : ContDiffAt ℝ 2 f x) :
    Laplacian.laplacian (fun z : V3 => z i * f z) x = x i * Laplacian.laplacian f x + 2 * fderiv ℝ f x (sb i) := by
  rw [lap_mul _ f x (coord_smooth i).contDiffAt hf, lap_coord]
  have : ∑ j, fderiv ℝ (fun z : V3 => z i) x (sb j) * fderiv ℝ f x (sb j) = fderiv ℝ f x (sb i) := by
    rw [Finset.sum_eq_single i]
    · rw [(proj_deriv i x).fderiv]
      show sb i i * _ = _
      rw [sb_apply]; simp
    · intro j _ hj
      rw [(proj_deriv i x).fderiv]
      show sb j i * _ = _
      rw [sb_apply, if_neg (Ne.symm hj), zero_mul]
    · simp
  rw [this]; ring

theorem sum_sb (x : V3) : x = x 0 • sb 0 + x 1 • sb 1 + x 2 • sb 2 := by
  ext j; fin_cases j <;> simp [sb]

theorem fderiv_self (f : V3 → ℝ) (x : V3) : fderiv ℝ f x x = ∑ i, x i * fderiv ℝ f x (sb i) := by
  conv_lhs => rw [show fderiv ℝ f x x = fderiv ℝ f x (x 0 • sb 0 + x 1 • sb 1 + x 2 • sb 2) by rw [← sum_sb]]
  rw [map_add, map_add, map_smul, map_smul, map_smul, Fin.sum_univ_three]
  simp

/-- `|z|²` -/
def sq3 (z : V3) : ℝ := z 0 * z 0 + z 1 * z 1 + z 2 * z 2

theorem sq3_smooth : ContDiff ℝ 2 sq3 := by
  unfold sq3
  exact (((coord_smooth 0).mul (coord_smooth 0)).add ((coord_smooth 1).mul (coord_smooth 1))).add ((coord_smooth 2).mul (coord_smooth 2))

theorem sq3_fderiv (x v : V3) : fderiv ℝ sq3 x v = 2 * (x 0 * v 0 + x 1 * v 1 + x 2 * v 2) := by
  have h : HasFDerivAt sq3 _ x := (((proj_deriv 0 x).mul (proj_deriv 0 x)).add ((proj_deriv 1 x).mul (proj_deriv 1 x))).add ((proj_deriv 2 x).mul (proj_deriv 2 x))
  rw [h.fderiv]
  simp
  ring

theorem sq3_lap (x : V3) : Laplacian.laplacian sq3 x = 6 := by
  rw [lap_eq _ x sq3_smooth.contDiffAt]
  have : ∀ i, (fun z => fderiv ℝ sq3 z (sb i)) = fun z : V3 => 2 * z i := by
    intro i; funext z; rw [sq3_fderiv]; simp only [sb_apply]; fin_cases i <;> simp
  simp only [this]
  have h : ∀ i : Fin 3, fderiv ℝ (fun z : V3 => 2 * z i) x (sb i) = 2 := by
    intro i
    rw [((proj_deriv i x).const_mul 2).fderiv]
    show 2 * sb i i = 2
    rw [sb_apply]; simp
  simp only [h]; norm_num

theorem lap_sq3_mul (f : V3 → ℝ) (x : V3) (hf : ContDiffAt ℝ 2 f x) :
    Laplacian.laplacian (fun z : V3 => sq3 z * f z) x = 6 * f x + sq3 x * Laplacian.laplacian f x + 4 * fderiv ℝ f x x := by
  rw [lap_mul _ f x sq3_smooth.contDiffAt hf, sq3_lap, fderiv_self]
  congr 1
  rw [Finset.mul_sum, Finset.mul_sum]
  refine Finset.sum_congr rfl fun i _ => ?_
  rw [sq3_fderiv]
  simp only [sb_apply]
  fin_cases i <;> simp <;> ring

theorem fderiv_mul_apply (f g : V3 → ℝ) (x v : V3) (hf : DifferentiableAt ℝ f x) (hg : DifferentiableAt ℝ g x) :
    fderiv ℝ (fun z => f z * g z) x v = f x * fderiv ℝ g x v + g x * fderiv ℝ f x v := by
  have hh : HasFDerivAt (fun z => f z * g z) _ x := hf.hasFDerivAt.mul hg.hasFDerivAt
  rw [hh.fderiv]; simp

/-- The recursion in the degree. -/
theorem Solid.step {n : Nat} {U1 dU1 U0 dU0 : V3 → ℝ} (h1 : Solid (n + 1) U1 dU1) (h0 : Solid n U0 dU0) (a b c : ℝ) (dU2 : V3 → ℝ)
    (hd : ∀ x, a * (U1 x + x 2 * dU1 x) - b * (2 * x 2 * U0 x + sq3 x * dU0 x) = c * dU2 x)
    (hlap : ∀ x, a * (2 * dU1 x) = b * ((6 + 4 * n) * U0 x)) (U2 : V3 → ℝ) (hc : c ≠ 0)
    (hU : ∀ x, c * U2 x = a * (x 2 * U1 x) - b * (sq3 x * U0 x)) : Solid (n + 2) U2 dU2 := by
  have e : U2 = fun x => c⁻¹ * (a * (x 2 * U1 x) - b * (sq3 x * U0 x)) := by
    funext x; rw [← hU]; field_simp
  have s1 : ContDiff ℝ 2 (fun x : V3 => x 2 * U1 x) := (coord_smooth 2).mul h1.smooth
  have s0 : ContDiff ℝ 2 (fun x : V3 => sq3 x * U0 x) := sq3_smooth.mul h0.smooth
  have d1 := fun x => (h1.smooth.differentiable (by norm_num)).differentiableAt (x := x)
  have d0 := fun x => (h0.smooth.differentiable (by norm_num)).differentiableAt (x := x)
  have ds := fun x => (sq3_smooth.differentiable (by norm_num)).differentiableAt (x := x)
  have dp : ∀ x, DifferentiableAt ℝ (fun z : V3 => z 2) x := fun x => (proj_deriv 2 x).differentiableAt
  have hfd : ∀ x v, fderiv ℝ U2 x v = c⁻¹ * (a * (x 2 * fderiv ℝ U1 x v + U1 x * v 2) -
      b * (sq3 x * fderiv ℝ U0 x v + U0 x * fderiv ℝ sq3 x v)) := by
    intro x v
    have hh : HasFDerivAt (fun x => c⁻¹ * (a * (x 2 * U1 x) - b * (sq3 x * U0 x))) _ x :=
      ((((s1.differentiable (by norm_num)) x).hasFDerivAt.const_mul a).sub (((s0.differentiable (by norm_num)) x).hasFDerivAt.const_mul b)).const_mul c⁻¹
    rw [e, hh.fderiv]
    simp only [ContinuousLinearMap.smul_apply, ContinuousLinearMap.sub_apply, smul_eq_mul]
    rw [fderiv_mul_apply _ _ _ _ (dp x) (d1 x), fderiv_mul_apply _ _ _ _ (ds x) (d0 x), (proj_deriv 2 x).fderiv]
    rfl
  refine ⟨?_, ?_, ?_, ?_⟩
  · rw [e]; exact contDiff_const.mul ((contDiff_const.mul s1).sub (contDiff_const.mul s0))
  · intro x
    rw [hfd, h1.dz, h0.dz, sq3_fderiv]
    simp only [sb_apply]
    have := hd x
    simp
    field_simp
    linarith [this]
  · intro x
    rw [hfd, h1.euler, h0.euler, sq3_fderiv, e]
    have : x 0 * x 0 + x 1 * x 1 + x 2 * x 2 = sq3 x := rfl
    rw [this]
    push_cast
    ring
  · intro x
    rw [e, lap_const_mul _ _ _ ((contDiff_const.mul s1).sub (contDiff_const.mul s0)).contDiffAt,
      lap_sub' _ _ _ (contDiff_const.mul s1).contDiffAt (contDiff_const.mul s0).contDiffAt, lap_const_mul _ _ _ s1.contDiffAt,
      lap_const_mul _ _ _ s0.contDiffAt, lap_coord_mul _ _ _ h1.smooth.contDiffAt, lap_sq3_mul _ _ h0.smooth.contDiffAt,
      h1.lap, h0.lap, h1.dz, h0.euler]
    have := hlap x
    have e3 : a * (x 2 * 0 + 2 * dU1 x) - b * (6 * U0 x + sq3 x * 0 + 4 * (n * U0 x)) = 0 := by linarith
    rw [e3, mul_zero]

theorem cr_solid_aux (m : Nat) : (ContDiff ℝ 2 fun y : V3 => cr (y 0) (y 1) m) ∧ (ContDiff ℝ 2 fun y : V3 => ci (y 0) (y 1) m) := by
  induction m with
  | zero => simp only [cr_zero, ci_zero]; exact ⟨contDiff_const, contDiff_const⟩
  | succ m ih =>
    simp only [cr_succ, ci_succ]
    exact ⟨((coord_smooth 0).mul ih.1).sub ((coord_smooth 1).mul ih.2), ((coord_smooth 0).mul ih.2).add ((coord_smooth 1).mul ih.1)⟩

theorem cr_fderiv (m : Nat) (x v : V3) : fderiv ℝ (fun y : V3 => cr (y 0) (y 1) m) x v =
    m * (cr (x 0) (x 1) (m - 1) * v 0 - ci (x 0) (x 1) (m - 1) * v 1) := by
  obtain ⟨L, h1, h2⟩ := cr_deriv m x
  rw [h1.fderiv, h2]

theorem ci_fderiv (m : Nat) (x v : V3) : fderiv ℝ (fun y : V3 => ci (y 0) (y 1) m) x v =
    m * (ci (x 0) (x 1) (m - 1) * v 0 + cr (x 0) (x 1) (m - 1) * v 1) := by
  obtain ⟨L, h1, h2⟩ := ci_deriv m x
  rw [h1.fderiv, h2]

theorem cr_lap (m : Nat) (x : V3) : Laplacian.laplacian (fun y : V3 => cr (y 0) (y 1) m) x = 0 ∧
    Laplacian.laplacian (fun y : V3 => ci (y 0) (y 1) m) x = 0 := by
  induction m with
  | zero => simp only [cr_zero, ci_zero]; simp [InnerProductSpace.laplacian_const]
  | succ m ih =>
    have s := cr_solid_aux m
    simp only [cr_succ, ci_succ]
    rw [lap_sub' _ _ _ ((coord_smooth 0).mul s.1).contDiffAt ((coord_smooth 1).mul s.2).contDiffAt]
    have ha := ((coord_smooth 0).mul s.2).contDiffAt (x := x) |>.laplacian_add (((coord_smooth 1).mul s.1).contDiffAt (x := x))
    have hf : (fun y : V3 => y 0 * ci (y 0) (y 1) m + y 1 * cr (y 0) (y 1) m) =
      ((fun y : V3 => y 0 * ci (y 0) (y 1) m) + fun y => y 1 * cr (y 0) (y 1) m) := rfl
    rw [hf, ha, lap_coord_mul _ _ _ s.1.contDiffAt, lap_coord_mul _ _ _ s.2.contDiffAt, lap_coord_mul _ _ _ s.2.contDiffAt,
      lap_coord_mul _ _ _ s.1.contDiffAt, ih.1, ih.2, cr_fderiv, cr_fderiv, ci_fderiv, ci_fderiv]
    simp only [sb_apply]
    constructor <;> simp

theorem cr_solid (m : Nat) : Solid m (fun y => cr (y 0) (y 1) m) (fun _ => 0) := by
  refine ⟨(cr_solid_aux m).1, fun x => ?_, fun x => ?_, fun x => (cr_lap m x).1⟩
  · rw [cr_fderiv]; simp [sb_apply]
  · rw [cr_fderiv]
    rcases m with _ | m
    · simp
    · rw [cr_succ, Nat.add_sub_cancel]; ring

/-- The solid harmonic of order `m` and degree `m + k`, not normed, as a polynomial. -/
def solidPoly (m : Nat) : Nat → V3 → ℝ
  | 0, x => legendreDeriv m m 0 * cr (x 0) (x 1) m
  | 1, x => (2 * m + 1) * (x 2 * (legendreDeriv m m 0 * cr (x 0) (x 1) m))
  | k + 2, x => ((2 * m + 2 * k + 3) * (x 2 * solidPoly m (k + 1) x) - (2 * m + k + 1) * (sq3 x * solidPoly m k x)) / (k + 2)

theorem Solid.const_mul {n : Nat} {U dU : V3 → ℝ} (h : Solid n U dU) (c : ℝ) : Solid n (fun x => c * U x) (fun x => c * dU x) := by
  have hd : ∀ x v, fderiv ℝ (fun x => c * U x) x v = c * fderiv ℝ U x v := by
    intro x v
    rw [(((h.smooth.differentiable (by norm_num)) x).hasFDerivAt.const_mul c).fderiv]; simp
  refine ⟨contDiff_const.mul h.smooth, fun x => by rw [hd, h.dz], fun x => by rw [hd, h.euler]; ring, fun x => by
    rw [lap_const_mul _ _ _ h.smooth.contDiffAt, h.lap, mul_zero]⟩

theorem solidPoly_zero (m : Nat) : Solid m (solidPoly m 0) (fun _ => 0) := by
  have := (cr_solid m).const_mul (legendreDeriv m m 0)
  simpa [solidPoly] using this

theorem solidPoly_one (m : Nat) : Solid (m + 1) (solidPoly m 1) (fun x => (2 * m + 1) * solidPoly m 0 x) := by
  have h0 := solidPoly_zero m
  have s1 : ContDiff ℝ 2 (fun x : V3 => x 2 * solidPoly m 0 x) := (coord_smooth 2).mul h0.smooth
  have base : Solid (m + 1) (fun x => x 2 * solidPoly m 0 x) (solidPoly m 0) := by
    have hd : ∀ x v, fderiv ℝ (fun x => x 2 * solidPoly m 0 x) x v = x 2 * fderiv ℝ (solidPoly m 0) x v + solidPoly m 0 x * v 2 := by
      intro x v
      rw [fderiv_mul_apply _ _ _ _ (proj_deriv 2 x).differentiableAt ((h0.smooth.differentiable (by norm_num)) x), (proj_deriv 2 x).fderiv]
      rfl
    refine ⟨s1, fun x => ?_, fun x => ?_, fun x => ?_⟩
    · rw [hd, h0.dz, sb_apply]; simp
    · rw [hd, h0.euler]; push_cast; ring
    · rw [lap_coord_mul _ _ _ h0.smooth.contDiffAt, h0.lap, h0.dz]; simp
  exact base.const_mul (2 * m + 1)

theorem solidPoly_succ (m k : Nat) (x : V3) : ((k : ℝ) + 2) * solidPoly m (k + 2) x =
    (2 * m + 2 * k + 3) * (x 2 * solidPoly m (k + 1) x) - (2 * m + k + 1) * (sq3 x * solidPoly m k x) := by
  have : (k : ℝ) + 2 ≠ 0 := by positivity
  show ((k : ℝ) + 2) * (_ / _) = _
  field_simp

theorem solidPoly_solid (m k : Nat) : Solid (m + (k + 1)) (solidPoly m (k + 1)) (fun x => (2 * m + k + 1) * solidPoly m k x) := by
  induction k using Nat.strong_induction_on with
  | _ k ih =>
    rcases k with _ | k
    · simpa using solidPoly_one m
    · have h1 := ih k (by omega)
      rcases k with _ | k
      · have h0 := solidPoly_zero m
        refine h1.step h0 (2 * m + 3) (2 * m + 1) 2 _ ?_ ?_ _ two_ne_zero ?_
        · intro x
          have : solidPoly m 1 x = (2 * m + 1) * (x 2 * solidPoly m 0 x) := rfl
          simp only [Nat.zero_add]
          rw [this]; push_cast; ring
        · intro x; push_cast; ring
        · intro x
          have := solidPoly_succ m 0 x
          push_cast at this
          simp only [Nat.zero_add] at this ⊢
          linear_combination this
      · have h0 := ih k (by omega)
        have hk : (k : ℝ) + 3 ≠ 0 := by positivity
        refine Solid.step (n := m + (k + 1)) (U1 := solidPoly m (k + 1 + 1)) h1 h0 (2 * m + 2 * (k + 1) + 3) (2 * m + (k + 1) + 1) (k + 3) _ ?_ ?_ _ hk ?_
        · intro x
          have := solidPoly_succ m k x
          push_cast
          linear_combination (-(2 * (m : ℝ) + k + 2)) * this
        · intro x; push_cast; ring
        · intro x
          have := solidPoly_succ m (k + 1) x
          push_cast at this
          linear_combination this

/-- All degrees. -/
theorem solidPoly_harmonic (m k : Nat) : ∃ dU, Solid (m + k) (solidPoly m k) dU := by
  rcases k with _ | k
  · exact ⟨_, solidPoly_zero m⟩
  · exact ⟨_, solidPoly_solid m k⟩

theorem D_mm (m : Nat) (t : ℝ) : legendreDeriv m m t = legendreDeriv m m 0 := by
  induction m with
  | zero => rw [D_zero_zero, D_zero_zero]
  | succ m ih => rw [D_diag, D_diag, ih]

theorem cr_scale (s a b : ℝ) (m : Nat) : cr (s * a) (s * b) m = s ^ m * cr a b m := by
  unfold cr
  rw [show (((s * a : ℝ) : ℂ) + ((s * b : ℝ) : ℂ) * Complex.I) = (s : ℂ) * ((a : ℂ) + b * Complex.I) by push_cast; ring, mul_pow]
  rw [← Complex.ofReal_pow, Complex.re_ofReal_mul]

theorem sq3_norm (x : V3) : sq3 x = ‖x‖ * ‖x‖ := (norm3 x).symm

/-- The solid harmonics away from the origin. -/
theorem solidPoly_eq (m k : Nat) (x : V3) (hx : x ≠ 0) :
    solidPoly m k x = ‖x‖ ^ k * legendreDeriv (m + k) m (x 2 / ‖x‖) * cr (x 0) (x 1) m := by
  have hr : ‖x‖ ≠ 0 := norm_ne_zero_iff.2 hx
  induction k using Nat.strong_induction_on with
  | _ k ih =>
    match k, ih with
    | 0, _ => simp only [solidPoly]; rw [pow_zero, Nat.add_zero, D_mm m (x 2 / ‖x‖)]; ring
    | 1, _ => simp only [solidPoly]; rw [D_sub, D_mm m (x 2 / ‖x‖), pow_one]; field_simp
    | k + 2, ih =>
      have h1 := ih (k + 1) (by omega)
      have h0 := ih k (by omega)
      have hs := solidPoly_succ m k x
      have hD := D_rec (m + k) m (x 2 / ‖x‖)
      rw [show m + k + 2 = m + (k + 2) by omega, show m + k + 1 = m + (k + 1) by omega] at hD
      have hk : (k : ℝ) + 2 ≠ 0 := by positivity
      have hD' : ((k : ℝ) + 2) * legendreDeriv (m + (k + 2)) m (x 2 / ‖x‖) =
          (2 * m + 2 * k + 3) * (x 2 / ‖x‖) * legendreDeriv (m + (k + 1)) m (x 2 / ‖x‖) - (2 * m + k + 1) * legendreDeriv (m + k) m (x 2 / ‖x‖) := by
        push_cast at hD; linear_combination hD
      apply mul_left_cancel₀ hk
      rw [hs, h1, h0, sq3_norm]
      have e2 : ((k : ℝ) + 2) * (‖x‖ ^ (k + 2) * legendreDeriv (m + (k + 2)) m (x 2 / ‖x‖) * cr (x 0) (x 1) m) =
          ‖x‖ ^ (k + 2) * cr (x 0) (x 1) m * (((k : ℝ) + 2) * legendreDeriv (m + (k + 2)) m (x 2 / ‖x‖)) := by ring
      rw [e2, hD', pow_succ, pow_succ]
      field_simp
      ring

theorem harmonicPos_solid (n m : Nat) (h : m ≤ n) (x : V3) (hx : x ≠ 0) :
    ‖x‖ ^ n * (harmonicPos n m ((1 / ‖x‖) • x)).re = sphericalNorm n m * solidPoly m (n - m) x := by
  have hr : ‖x‖ ≠ 0 := norm_ne_zero_iff.2 hx
  obtain ⟨k, rfl⟩ : ∃ k, n = m + k := ⟨n - m, by omega⟩
  rw [Nat.add_sub_cancel_left, solidPoly_eq m k x hx, harmonicPos_re]
  simp only [PiLp.smul_apply, smul_eq_mul]
  rw [cr_scale, q, pow_add, show 1 / ‖x‖ * x 2 = x 2 / ‖x‖ by ring, one_div, inv_pow]
  field_simp

end
end Bembel.Sph
