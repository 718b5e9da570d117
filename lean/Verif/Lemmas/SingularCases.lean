import Verif.Lemmas.SingularRate
/-! # The three singular cases -/

namespace Bembel.Singular
open scoped ContDiff
open Props Duffy MeasureTheory Finset H2 Spec

variable {R : Type} [RCLike R]

theorem cube_square {p : PointPair} (hp : p ∈ Cube) : ClosedSquare p.1 ∧ ClosedSquare p.2 := by
  obtain ⟨⟨⟨h1, h2⟩, h3, h4⟩, ⟨h5, h6⟩, h7, h8⟩ := mem_cube.1 hp
  exact ⟨⟨h1, h5, h2, h6⟩, ⟨h3, h7, h4, h8⟩⟩

theorem square_cube {p : PointPair} (h1 : ClosedSquare p.1) (h2 : ClosedSquare p.2) : p ∈ Cube :=
  mem_cube.2 ⟨⟨⟨h1.1, h1.2.2.1⟩, h2.1, h2.2.2.1⟩, ⟨h1.2.1, h1.2.2.2⟩, h2.2.1, h2.2.2.2⟩

/-- The parts of a substitution: smooth maps of the cube into itself, and weights with a power of the radial coordinate. -/
structure Pieces {n : Nat} (w : Fin n → PointPair → ℝ) (Φ : Fin n → PointPair → PointPair) (σ : PointPair →L[ℝ] ℝ) (m : Nat) : Prop where
  smooth : ∀ k, ContDiff ℝ ∞ (Φ k)
  cube : ∀ k, ∀ p ∈ Cube, Φ k p ∈ Cube
  weight : ∀ k, ∃ v : PointPair → ℝ, ContDiff ℝ ∞ v ∧ ∀ p, w k p = σ p ^ m * v p

variable {n : Nat} {w : Fin n → PointPair → ℝ} {Φ : Fin n → PointPair → PointPair} {σ : PointPair →L[ℝ] ℝ} {e : PointPair} {m : Nat}

theorem smooth_meas {B : PointPair → R} (hB : SmoothCube B) : AEStronglyMeasurable B μ4 := (smooth_integrable hB).1

theorem Pieces.comp {E : Type} [NormedAddCommGroup E] [NormedSpace ℝ E] (hp : Pieces w Φ σ m) {B : PointPair → E} (hB : SmoothCube B) (k : Fin n) :
    SmoothCube fun p => B (Φ k p) := fun p h =>
  ContDiffAt.comp p (hB (Φ k p) (hp.cube k p h)) (hp.smooth k).contDiffAt

theorem smul_split {a b c : ℝ} (h : a = b * c) (z : R) : a • z = (b : R) * c • z := by
  rw [h, mul_smul, RCLike.real_smul_eq_coe_mul]

theorem reg_single (hr : Radial σ e) (hp : Pieces w Φ σ m) (hm : 1 ≤ m) (X Y : ℝ × ℝ → V3) (hX : ContDiff ℝ ∞ X) (hY : ContDiff ℝ ∞ Y)
    (hg : ∀ k, Gap σ e fun p => X (Φ k p).1 - Y (Φ k p).2) (φ : ℝ → R) (hφ : ContDiff ℝ ∞ φ) (B : PointPair → R) (hB : SmoothCube B) :
    Regularised w Φ σ fun p => B p * (φ ‖X p.1 - Y p.2‖ / ((‖X p.1 - Y p.2‖ : ℝ) : R)) := by
  have c1 : Continuous fun p : PointPair => ‖X p.1 - Y p.2‖ :=
    ((hX.continuous.comp continuous_fst).sub (hY.continuous.comp continuous_snd)).norm
  refine ⟨(smooth_meas hB).mul ?_, fun k => ?_⟩
  · have m1 : Measurable fun p : PointPair => φ ‖X p.1 - Y p.2‖ := (hφ.continuous.comp c1).measurable
    have m2 : Measurable fun p : PointPair => ((‖X p.1 - Y p.2‖ : ℝ) : R) := (RCLike.continuous_ofReal.comp c1).measurable
    exact (m1.div m2).aestronglyMeasurable
  · obtain ⟨v, v1, v2⟩ := hp.weight k
    obtain ⟨G, g1, g2⟩ := piece_single hr (hg k) φ hφ (fun p => B (Φ k p)) (hp.comp hB k)
    refine ⟨fun p => ((σ p ^ (m - 1) * v p : ℝ) : R) * G p, fun p h => (coe_smooth ((σ.contDiff.pow _).mul v1).contDiffAt).mul (g1 p h), fun p h hs => ?_⟩
    show _ = ((σ p ^ (m - 1) * v p : ℝ) : R) * G p
    rw [← g2 p h hs]
    refine smul_split ?_ _
    rw [v2 p]
    conv_lhs => rw [← Nat.sub_add_cancel hm, pow_succ]
    ring

theorem double_meas (X Y : ℝ × ℝ → V3) (hX : ContDiff ℝ ∞ X) (hY : ContDiff ℝ ∞ Y)
    (φ : ℝ → R) (hφ : ContDiff ℝ ∞ φ) (B : PointPair → R) (hB : SmoothCube B) (N : PointPair → V3) (hN : ContDiff ℝ ∞ N) :
    AEStronglyMeasurable (fun p => B p * (((inner ℝ (X p.1 - Y p.2) (N p) : ℝ) : R) * φ ‖X p.1 - Y p.2‖ /
      ((‖X p.1 - Y p.2‖ * ‖X p.1 - Y p.2‖ * ‖X p.1 - Y p.2‖ : ℝ) : R))) μ4 := by
  have c0 : Continuous fun p : PointPair => X p.1 - Y p.2 := (hX.continuous.comp continuous_fst).sub (hY.continuous.comp continuous_snd)
  have c1 : Continuous fun p : PointPair => ‖X p.1 - Y p.2‖ := c0.norm
  refine (smooth_meas hB).mul ?_
  have m1 : Measurable fun p : PointPair => φ ‖X p.1 - Y p.2‖ := (hφ.continuous.comp c1).measurable
  have m2 : Measurable fun p : PointPair => ((‖X p.1 - Y p.2‖ * ‖X p.1 - Y p.2‖ * ‖X p.1 - Y p.2‖ : ℝ) : R) :=
    (RCLike.continuous_ofReal.comp ((c1.mul c1).mul c1)).measurable
  have m3 : Measurable fun p : PointPair => ((inner ℝ (X p.1 - Y p.2) (N p) : ℝ) : R) :=
    (RCLike.continuous_ofReal.comp (c0.inner hN.continuous)).measurable
  exact ((m3.mul m1).div m2).aestronglyMeasurable

theorem reg_double (hr : Radial σ e) (hp : Pieces w Φ σ m) (hm : 2 ≤ m) (X Y : ℝ × ℝ → V3) (hX : ContDiff ℝ ∞ X) (hY : ContDiff ℝ ∞ Y)
    (hg : ∀ k, Gap σ e fun p => X (Φ k p).1 - Y (Φ k p).2) (φ : ℝ → R) (hφ : ContDiff ℝ ∞ φ) (B : PointPair → R) (hB : SmoothCube B)
    (N : PointPair → V3) (hN : ContDiff ℝ ∞ N) :
    Regularised w Φ σ fun p => B p * (((inner ℝ (X p.1 - Y p.2) (N p) : ℝ) : R) * φ ‖X p.1 - Y p.2‖ /
      ((‖X p.1 - Y p.2‖ * ‖X p.1 - Y p.2‖ * ‖X p.1 - Y p.2‖ : ℝ) : R)) := by
  refine ⟨double_meas X Y hX hY φ hφ B hB N hN, fun k => ?_⟩
  obtain ⟨v, v1, v2⟩ := hp.weight k
  obtain ⟨G, g1, g2⟩ := piece_double hr (hg k) φ hφ (fun p => B (Φ k p)) (hp.comp hB k) (fun p => N (Φ k p)) (hN.comp (hp.smooth k))
  refine ⟨fun p => ((σ p ^ (m - 2) * v p : ℝ) : R) * G p, fun p h => (coe_smooth ((σ.contDiff.pow _).mul v1).contDiffAt).mul (g1 p h), fun p h hs => ?_⟩
  show _ = ((σ p ^ (m - 2) * v p : ℝ) : R) * G p
  rw [← g2 p h hs]
  refine smul_split ?_ _
  rw [v2 p]
  conv_lhs => rw [← Nat.sub_add_cancel hm, pow_add]
  ring

theorem reg_tangent (hr : Radial σ e) (hp : Pieces w Φ σ m) (hm : 1 ≤ m) (X Y : ℝ × ℝ → V3) (hX : ContDiff ℝ ∞ X) (hY : ContDiff ℝ ∞ Y)
    (hg : ∀ k, Gap σ e fun p => X (Φ k p).1 - Y (Φ k p).2) (φ : ℝ → R) (hφ : ContDiff ℝ ∞ φ) (B : PointPair → R) (hB : SmoothCube B)
    (N : PointPair → V3) (hN : ContDiff ℝ ∞ N)
    (ht : ∀ k, ∀ p ∈ Cube, σ p = 0 → ∀ v1 v2, inner ℝ (fderiv ℝ X (Φ k p).1 v1 - fderiv ℝ Y (Φ k p).2 v2) (N (Φ k p)) = 0) :
    Regularised w Φ σ fun p => B p * (((inner ℝ (X p.1 - Y p.2) (N p) : ℝ) : R) * φ ‖X p.1 - Y p.2‖ /
      ((‖X p.1 - Y p.2‖ * ‖X p.1 - Y p.2‖ * ‖X p.1 - Y p.2‖ : ℝ) : R)) := by
  refine ⟨double_meas X Y hX hY φ hφ B hB N hN, fun k => ?_⟩
  obtain ⟨v, v1, v2⟩ := hp.weight k
  have tang : ∀ p ∈ Cube, σ p = 0 → inner ℝ (fderiv ℝ (fun p => X (Φ k p).1 - Y (Φ k p).2) p e) (N (Φ k p)) = 0 := by
    intro p h h0
    have d1 : HasFDerivAt (Φ k) (fderiv ℝ (Φ k) p) p := ((hp.smooth k).differentiable (by simp) p).hasFDerivAt
    have d2 : HasFDerivAt (fun p => X (Φ k p).1) ((fderiv ℝ X (Φ k p).1).comp ((ContinuousLinearMap.fst ℝ _ _).comp (fderiv ℝ (Φ k) p))) p :=
      HasFDerivAt.comp p ((hX.differentiable (by simp) _).hasFDerivAt) d1.fst
    have d3 : HasFDerivAt (fun p => Y (Φ k p).2) ((fderiv ℝ Y (Φ k p).2).comp ((ContinuousLinearMap.snd ℝ _ _).comp (fderiv ℝ (Φ k) p))) p :=
      HasFDerivAt.comp p ((hY.differentiable (by simp) _).hasFDerivAt) d1.snd
    have dd : fderiv ℝ (fun p => X (Φ k p).1 - Y (Φ k p).2) p = _ := (d2.sub d3).fderiv
    rw [dd]
    exact ht k p h h0 _ _
  obtain ⟨G, g1, g2⟩ := piece_tangent hr (hg k) φ hφ (fun p => B (Φ k p)) (hp.comp hB k) (fun p => N (Φ k p)) (hN.comp (hp.smooth k)) tang
  refine ⟨fun p => ((σ p ^ (m - 1) * v p : ℝ) : R) * G p, fun p h => (coe_smooth ((σ.contDiff.pow _).mul v1).contDiffAt).mul (g1 p h), fun p h hs => ?_⟩
  show _ = ((σ p ^ (m - 1) * v p : ℝ) : R) * G p
  rw [← g2 p h hs]
  refine smul_split ?_ _
  rw [v2 p]
  conv_lhs => rw [← Nat.sub_add_cancel hm, pow_succ]
  ring

/-- The radial coordinates: the first for identical elements and for a common vertex, the second for a common edge. -/
def σ1 : PointPair →L[ℝ] ℝ := (ContinuousLinearMap.fst ℝ ℝ ℝ).comp (ContinuousLinearMap.fst ℝ (ℝ × ℝ) (ℝ × ℝ))
def σ2 : PointPair →L[ℝ] ℝ := (ContinuousLinearMap.snd ℝ ℝ ℝ).comp (ContinuousLinearMap.fst ℝ (ℝ × ℝ) (ℝ × ℝ))

theorem radial1 : Radial σ1 ((1, 0), (0, 0)) := by
  refine ⟨rfl, fun p hp => (mem_cube.1 hp).1.1.1, fun p hp => ?_, fun p hp h0 τ t0 t1 => ?_⟩
  · obtain ⟨⟨⟨h1, h2⟩, h3, h4⟩, ⟨h5, h6⟩, h7, h8⟩ := mem_cube.1 hp
    refine mem_cube.2 ⟨⟨⟨?_, ?_⟩, ?_, ?_⟩, ⟨?_, ?_⟩, ?_, ?_⟩ <;> simp [σ1] <;> assumption
  · obtain ⟨⟨⟨h1, h2⟩, h3, h4⟩, ⟨h5, h6⟩, h7, h8⟩ := mem_cube.1 hp
    have h0 : p.1.1 = 0 := h0
    refine mem_cube.2 ⟨⟨⟨?_, ?_⟩, ?_, ?_⟩, ⟨?_, ?_⟩, ?_, ?_⟩ <;> simp [h0] <;> assumption

theorem radial2 : Radial σ2 ((0, 1), (0, 0)) := by
  refine ⟨rfl, fun p hp => (mem_cube.1 hp).1.1.2, fun p hp => ?_, fun p hp h0 τ t0 t1 => ?_⟩
  · obtain ⟨⟨⟨h1, h2⟩, h3, h4⟩, ⟨h5, h6⟩, h7, h8⟩ := mem_cube.1 hp
    refine mem_cube.2 ⟨⟨⟨?_, ?_⟩, ?_, ?_⟩, ⟨?_, ?_⟩, ?_, ?_⟩ <;> simp [σ2] <;> assumption
  · obtain ⟨⟨⟨h1, h2⟩, h3, h4⟩, ⟨h5, h6⟩, h7, h8⟩ := mem_cube.1 hp
    have h0 : p.1.2 = 0 := h0
    refine mem_cube.2 ⟨⟨⟨?_, ?_⟩, ?_, ?_⟩, ⟨?_, ?_⟩, ?_, ?_⟩ <;> simp [h0] <;> assumption

theorem conv_unit {s u : ℝ} (hs : 0 ≤ s) (hs' : s ≤ 1) (hu : 0 ≤ u) (hu' : u ≤ 1) :
    0 ≤ u * (1 - s) ∧ u * (1 - s) ≤ 1 ∧ 0 ≤ u * (1 - s) + s ∧ u * (1 - s) + s ≤ 1 ∧ 0 ≤ s * u ∧ s * u ≤ 1 :=
  ⟨by nlinarith, by nlinarith, by nlinarith, by nlinarith, by nlinarith, by nlinarith⟩

theorem mk_cube {a b c d : ℝ} (h1 : 0 ≤ a ∧ a ≤ 1) (h2 : 0 ≤ b ∧ b ≤ 1) (h3 : 0 ≤ c ∧ c ≤ 1) (h4 : 0 ≤ d ∧ d ≤ 1) : (((a, b), (c, d)) : PointPair) ∈ Cube :=
  mem_cube.2 ⟨⟨⟨h1.1, h2.1⟩, h3.1, h4.1⟩, ⟨h1.2, h2.2⟩, h3.2, h4.2⟩

theorem pieces2 : Pieces w2 Φ2 σ1 1 := by
  have ma1 : ContDiff ℝ ∞ a1 := by unfold a1; fun_prop
  have ma2 : ContDiff ℝ ∞ a2 := by unfold a2; fun_prop
  have mb1 : ContDiff ℝ ∞ b1 := by unfold b1; fun_prop
  have mb2 : ContDiff ℝ ∞ b2 := by unfold b2; fun_prop
  refine ⟨fun k => ?_, fun k p hp => ?_, fun k => ⟨fun p => (1 - p.1.1) * (1 - p.1.1 * p.1.2), by fun_prop, fun p => by rw [pow_one]; rfl⟩⟩
  · fin_cases k <;> (simp only [Φ2]; dsimp; fun_prop)
  · obtain ⟨⟨⟨h1, h2⟩, h3, h4⟩, ⟨h5, h6⟩, h7, h8⟩ := mem_cube.1 hp
    obtain ⟨c1, c2, c3, c4, -⟩ := conv_unit h1 h5 h3 h7
    obtain ⟨-, -, -, -, s1, s2⟩ := conv_unit h1 h5 h2 h6
    obtain ⟨d1, d2, d3, d4, -⟩ := conv_unit s1 s2 h4 h8
    have A1 : 0 ≤ a1 p ∧ a1 p ≤ 1 := ⟨c1, c2⟩
    have B1 : 0 ≤ b1 p ∧ b1 p ≤ 1 := ⟨c3, c4⟩
    have A2 : 0 ≤ a2 p ∧ a2 p ≤ 1 := ⟨d1, d2⟩
    have B2 : 0 ≤ b2 p ∧ b2 p ≤ 1 := ⟨d3, d4⟩
    fin_cases k <;> (simp only [Φ2]; refine mk_cube ?_ ?_ ?_ ?_ <;> assumption)

theorem pieces3 : Pieces w3 Φ3 σ2 2 := by
  have mt1 : ContDiff ℝ ∞ t1 := by unfold t1; fun_prop
  have mt2 : ContDiff ℝ ∞ t2 := by unfold t2; fun_prop
  have mt3 : ContDiff ℝ ∞ t3 := by unfold t3; fun_prop
  have mt4 : ContDiff ℝ ∞ t4 := by unfold t4; fun_prop
  have me1 : ContDiff ℝ ∞ e1 := by unfold e1; fun_prop
  have me2 : ContDiff ℝ ∞ e2 := by unfold e2; fun_prop
  refine ⟨fun k => ?_, fun k p hp => ?_, fun k => ?_⟩
  · fin_cases k <;> (simp only [Φ3]; dsimp; fun_prop)
  · obtain ⟨⟨⟨h1, h2⟩, h3, h4⟩, ⟨h5, h6⟩, h7, h8⟩ := mem_cube.1 hp
    have r1 : 0 ≤ 1 - p.1.1 := by linarith
    have r2 : 1 - p.1.1 ≤ 1 := by linarith
    obtain ⟨c1, c2, -⟩ := conv_unit h2 h6 h1 h5
    obtain ⟨d1, d2, -⟩ := conv_unit h2 h6 r1 r2
    obtain ⟨-, -, -, -, s1, s2⟩ := conv_unit h2 h6 h3 h7
    obtain ⟨-, -, -, -, s3, s4⟩ := conv_unit h2 h6 h4 h8
    obtain ⟨f1, f2, -⟩ := conv_unit s1 s2 h1 h5
    obtain ⟨g1, g2, -⟩ := conv_unit s1 s2 r1 r2
    have T1 : 0 ≤ t1 p ∧ t1 p ≤ 1 := ⟨c1, c2⟩
    have T2 : 0 ≤ t2 p ∧ t2 p ≤ 1 := ⟨d1, d2⟩
    have T3 : 0 ≤ t3 p ∧ t3 p ≤ 1 := ⟨f1, f2⟩
    have T4 : 0 ≤ t4 p ∧ t4 p ≤ 1 := ⟨g1, g2⟩
    have E1 : 0 ≤ e1 p ∧ e1 p ≤ 1 := ⟨s1, s2⟩
    have E2 : 0 ≤ e2 p ∧ e2 p ≤ 1 := ⟨s3, s4⟩
    have S : 0 ≤ p.1.2 ∧ p.1.2 ≤ 1 := ⟨h2, h6⟩
    have N : ∀ x : ℝ, 0 ≤ x ∧ x ≤ 1 → 0 ≤ 1 - x ∧ 1 - x ≤ 1 := fun x hx => ⟨by linarith [hx.2], by linarith [hx.1]⟩
    have N1 := N _ T1
    have N2 := N _ T2
    have N3 := N _ T3
    have N4 := N _ T4
    fin_cases k <;> (simp only [Φ3]; refine mk_cube ?_ ?_ ?_ ?_ <;> assumption)
  · fin_cases k
    · exact ⟨fun p => 1 - p.1.2, by fun_prop, fun p => rfl⟩
    · exact ⟨fun p => 1 - p.1.2, by fun_prop, fun p => rfl⟩
    all_goals exact ⟨fun p => 1 - p.1.2 * p.2.1, by fun_prop, fun p => rfl⟩

theorem pieces4 : Pieces w4 Φ4 σ1 3 := by
  refine ⟨fun k => ?_, fun k p hp => ?_, fun k => ⟨fun p => 1, by fun_prop, fun p => by rw [mul_one]; rfl⟩⟩
  · fin_cases k <;> (simp only [Φ4]; dsimp; fun_prop)
  · obtain ⟨⟨⟨h1, h2⟩, h3, h4⟩, ⟨h5, h6⟩, h7, h8⟩ := mem_cube.1 hp
    have S : 0 ≤ p.1.1 ∧ p.1.1 ≤ 1 := ⟨h1, h5⟩
    have c1 : 0 ≤ p.1.1 * p.1.2 ∧ p.1.1 * p.1.2 ≤ 1 := ⟨by nlinarith, by nlinarith⟩
    have c2 : 0 ≤ p.1.1 * p.2.1 ∧ p.1.1 * p.2.1 ≤ 1 := ⟨by nlinarith, by nlinarith⟩
    have c3 : 0 ≤ p.1.1 * p.2.2 ∧ p.1.1 * p.2.2 ≤ 1 := ⟨by nlinarith, by nlinarith⟩
    fin_cases k <;> (simp only [Φ4]; refine mk_cube ?_ ?_ ?_ ?_ <;> assumption)

/-- Identical elements. -/
theorem gap2 (X : ℝ × ℝ → V3) (hX : ContDiff ℝ ∞ X) (c : ℝ) (hc : 0 < c)
    (h : ∀ x y, ClosedSquare x → ClosedSquare y → c * ‖x - y‖ ≤ ‖X x - X y‖) (k : Fin 8) :
    Gap σ1 ((1, 0), (0, 0)) fun p => X (Φ2 k p).1 - X (Φ2 k p).2 := by
  refine ⟨((hX.comp (contDiff_fst.comp (pieces2.smooth k))).sub (hX.comp (contDiff_snd.comp (pieces2.smooth k)))), fun p hp => ?_, c, hc, fun p hp => ?_⟩
  · have : (Φ2 k (p - σ1 p • ((1, 0), (0, 0)))).1 = (Φ2 k (p - σ1 p • ((1, 0), (0, 0)))).2 := by
      fin_cases k <;> simp [Φ2, a1, b1, a2, b2, σ1]
    rw [this, sub_self]
  · obtain ⟨q1, q2⟩ := cube_square (pieces2.cube k p hp)
    refine le_trans (mul_le_mul_of_nonneg_left ?_ hc.le) (h _ _ q1 q2)
    have s0 : 0 ≤ p.1.1 := (mem_cube.1 hp).1.1.1
    show p.1.1 ≤ _
    rw [Prod.norm_def]
    fin_cases k <;> simp [Φ2, a1, b1, abs_of_nonneg s0]

/-- Common edge. -/
theorem gap3 (X Y : ℝ × ℝ → V3) (hX : ContDiff ℝ ∞ X) (hY : ContDiff ℝ ∞ Y) (c : ℝ) (hc : 0 < c)
    (h0 : ∀ x : ℝ, 0 ≤ x → x ≤ 1 → X (x, 0) = Y (1 - x, 0))
    (h : ∀ x y, ClosedSquare x → ClosedSquare y → c * (|x.1 + y.1 - 1| + x.2 + y.2) ≤ ‖X x - Y y‖) (k : Fin 6) :
    Gap σ2 ((0, 1), (0, 0)) fun p => X (Φ3 k p).1 - Y (Φ3 k p).2 := by
  refine ⟨((hX.comp (contDiff_fst.comp (pieces3.smooth k))).sub (hY.comp (contDiff_snd.comp (pieces3.smooth k)))), fun p hp => ?_, c, hc, fun p hp => ?_⟩
  · obtain ⟨⟨⟨h1, h2⟩, h3, h4⟩, ⟨h5, h6⟩, h7, h8⟩ := mem_cube.1 hp
    have g1 := h0 p.1.1 h1 h5
    have g2 := h0 (1 - p.1.1) (by linarith) (by linarith)
    rw [sub_sub_cancel] at g2
    rw [sub_eq_zero]
    fin_cases k <;> simp [Φ3, t1, t2, t3, t4, e1, e2, σ2, g1, g2]
  · obtain ⟨q1, q2⟩ := cube_square (pieces3.cube k p hp)
    refine le_trans (mul_le_mul_of_nonneg_left ?_ hc.le) (h _ _ q1 q2)
    obtain ⟨⟨⟨h1, h2⟩, h3, h4⟩, ⟨h5, h6⟩, h7, h8⟩ := mem_cube.1 hp
    have s0 : 0 ≤ p.1.2 * p.2.1 := mul_nonneg h2 h3
    have s1 : 0 ≤ p.1.2 * p.2.2 := mul_nonneg h2 h4
    show p.1.2 ≤ _
    have A : ∀ x : ℝ, x ≤ |x| := le_abs_self
    have A' : ∀ x : ℝ, -x ≤ |x| := neg_le_abs
    fin_cases k
    · have := A' (t1 p + t2 p - 1)
      show _ ≤ |t1 p + t2 p - 1| + e1 p + e2 p
      simp only [t1, t2, e1, e2] at this ⊢
      linarith
    · have := A (1 - t1 p + (1 - t2 p) - 1)
      show _ ≤ |1 - t1 p + (1 - t2 p) - 1| + e1 p + e2 p
      simp only [t1, t2, e1, e2] at this ⊢
      linarith
    · have := abs_nonneg (t3 p + t4 p - 1)
      show _ ≤ |t3 p + t4 p - 1| + p.1.2 + e2 p
      simp only [e2] at this ⊢
      linarith
    · have := abs_nonneg (1 - t3 p + (1 - t4 p) - 1)
      show _ ≤ |1 - t3 p + (1 - t4 p) - 1| + p.1.2 + e2 p
      simp only [e2] at this ⊢
      linarith
    · have := abs_nonneg (t4 p + t3 p - 1)
      show _ ≤ |t4 p + t3 p - 1| + e2 p + p.1.2
      simp only [e2] at this ⊢
      linarith
    · have := abs_nonneg (1 - t4 p + (1 - t3 p) - 1)
      show _ ≤ |1 - t4 p + (1 - t3 p) - 1| + e2 p + p.1.2
      simp only [e2] at this ⊢
      linarith

/-- Common vertex. -/
theorem gap4 (X Y : ℝ × ℝ → V3) (hX : ContDiff ℝ ∞ X) (hY : ContDiff ℝ ∞ Y) (c : ℝ) (hc : 0 < c) (h0 : X (0, 0) = Y (0, 0))
    (h : ∀ x y, ClosedSquare x → ClosedSquare y → c * (‖x‖ + ‖y‖) ≤ ‖X x - Y y‖) (k : Fin 4) :
    Gap σ1 ((1, 0), (0, 0)) fun p => X (Φ4 k p).1 - Y (Φ4 k p).2 := by
  refine ⟨((hX.comp (contDiff_fst.comp (pieces4.smooth k))).sub (hY.comp (contDiff_snd.comp (pieces4.smooth k)))), fun p hp => ?_, c, hc, fun p hp => ?_⟩
  · rw [sub_eq_zero]
    fin_cases k <;> simp [Φ4, σ1, h0]
  · obtain ⟨q1, q2⟩ := cube_square (pieces4.cube k p hp)
    refine le_trans (mul_le_mul_of_nonneg_left ?_ hc.le) (h _ _ q1 q2)
    have s0 : 0 ≤ p.1.1 := (mem_cube.1 hp).1.1.1
    show p.1.1 ≤ _
    have b1 : ∀ x : ℝ × ℝ, x.1 ≤ ‖x‖ := fun x => (le_abs_self _).trans (norm_fst_le x)
    have b2 : ∀ x : ℝ × ℝ, x.2 ≤ ‖x‖ := fun x => (le_abs_self _).trans (norm_snd_le x)
    have n0 : ∀ x : ℝ × ℝ, 0 ≤ ‖x‖ := fun x => norm_nonneg x
    fin_cases k
    · exact (b1 (p.1.1, p.1.1 * p.1.2)).trans (le_add_of_nonneg_right (n0 _))
    · exact (b2 (p.1.1 * p.1.2, p.1.1)).trans (le_add_of_nonneg_right (n0 _))
    · exact (b1 (p.1.1, p.1.1 * p.1.2)).trans (le_add_of_nonneg_left (n0 _))
    · exact (b2 (p.1.1 * p.1.2, p.1.1)).trans (le_add_of_nonneg_left (n0 _))

theorem inside1 (p : PointPair) (h1 : InSquare p.1) (_ : InSquare p.2) : 0 < σ1 p := h1.1
theorem inside2 (p : PointPair) (h1 : InSquare p.1) (_ : InSquare p.2) : 0 < σ2 p := h1.2.2.1

theorem inside_ae : ∀ᵐ p ∂μ4, InSquare p.1 ∧ InSquare p.2 := by
  have n : ∀ x : ℝ, ∀ᵐ y ∂μ1, y ≠ x := fun x => by
    unfold μ1
    exact ae_restrict_of_ae (Measure.ae_ne volume x)
  have s : ∀ᵐ y ∂μ1, 0 < y ∧ y < 1 := by
    have m : ∀ᵐ y ∂μ1, y ∈ Set.Ioc (0 : ℝ) 1 := ae_restrict_mem measurableSet_Ioc
    filter_upwards [n 1, m] with y h1 h2
    exact ⟨h2.1, lt_of_le_of_ne h2.2 h1⟩
  have sq : ∀ᵐ x ∂(μ1.prod μ1), InSquare x := by
    have a1 : ∀ᵐ x ∂(μ1.prod μ1), 0 < x.1 ∧ x.1 < 1 := Measure.quasiMeasurePreserving_fst.ae s
    have a2 : ∀ᵐ x ∂(μ1.prod μ1), 0 < x.2 ∧ x.2 < 1 := Measure.quasiMeasurePreserving_snd.ae s
    filter_upwards [a1, a2] with x h1 h2
    exact ⟨h1.1, h1.2, h2.1, h2.2⟩
  rw [μ4_eq]
  have a1 : ∀ᵐ p ∂((μ1.prod μ1).prod (μ1.prod μ1)), InSquare p.1 := Measure.quasiMeasurePreserving_fst.ae sq
  have a2 : ∀ᵐ p ∂((μ1.prod μ1).prod (μ1.prod μ1)), InSquare p.2 := Measure.quasiMeasurePreserving_snd.ae sq
  filter_upwards [a1, a2] with p h1 h2
  exact ⟨h1, h2⟩

end Bembel.Singular
