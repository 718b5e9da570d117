import Verif.Lemmas.SingularPiece
import Verif.Props.SmoothSurface
import Verif.Props.Duffy
/-! # Integrability and quadrature error from smooth pieces -/

namespace Bembel.Singular
open scoped ContDiff
open Props Duffy MeasureTheory Finset H2 Spec

variable {R : Type} [RCLike R]

instance : IsFiniteMeasure μ4 := ⟨by unfold μ4; rw [Measure.restrict_apply_univ]; exact isCompact_Icc.measure_lt_top⟩

/-- The iterated integral of an integrable function. -/
theorem integral4_eq (F : PointPair → R) (hF : Integrable F μ4) : Interpol.integral4 (fun y z => F (y, z)) = ∫ p, F p ∂μ4 := by
  have hv : ∀ f : ℝ → R, ∫ x in (0:ℝ)..1, f x = ∫ x, f x ∂μ1 := fun f => intervalIntegral.integral_of_le zero_le_one
  unfold Interpol.integral4
  simp only [hv]
  rw [μ4_eq] at hF ⊢
  have hg := hF.integral_prod_left
  have e : (fun x : ℝ × ℝ => ∫ y, F (x, y) ∂(μ1.prod μ1)) =ᵐ[μ1.prod μ1] fun x => ∫ c, ∫ d, F (x, (c, d)) ∂μ1 ∂μ1 := by
    filter_upwards [hF.prod_right_ae] with x hx
    exact integral_prod _ hx
  rw [integral_prod _ hF, integral_congr_ae e, integral_prod _ (hg.congr e)]

theorem smooth_integrable {G : PointPair → R} (hG : SmoothCube G) : Integrable G μ4 := by
  have : ContinuousOn G Cube := fun p hp => (hG p hp).continuousAt.continuousWithinAt
  exact this.integrableOn_compact isCompact_Icc

theorem smooth_pair {G : PointPair → R} (hG : SmoothCube G) : SmoothPair fun y z => G (y, z) :=
  ⟨G, fun y z hy hz => hG (y, z) (mem_cube.2 ⟨⟨⟨hy.1, hy.2.2.1⟩, hz.1, hz.2.2.1⟩, ⟨hy.2.1, hy.2.2.2⟩, hz.2.1, hz.2.2.2⟩), fun _ _ _ _ => rfl⟩

/-- The tensor product rule for pairs. -/
theorem pairQuad_tensor (q : Quad1 ℝ) (G : PointPair → R) :
    pairQuad (tensorRule q) G = quadSquare q fun y => quadSquare q fun z => G (y, z) := by
  have inner : ∀ y : ℝ × ℝ, ∑ j ∈ range (tensorRule q).size, algebraMap ℝ R ((tensorRule q).w j) * G (y, (tensorRule q).xi j) = quadSquare q fun z => G (y, z) :=
    fun y => C46_sum q fun w x => algebraMap ℝ R w * G (y, x)
  have outer := C46_sum q fun w y => algebraMap ℝ R w * quadSquare q fun z => G (y, z)
  refine Eq.trans ?_ outer
  unfold pairQuad
  refine sum_congr rfl fun i _ => ?_
  rw [← inner, mul_sum]
  refine sum_congr rfl fun j _ => ?_
  rw [Algebra.smul_def, map_mul, mul_assoc]

variable {n : Nat} {w : Fin n → PointPair → ℝ} {Φ : Fin n → PointPair → PointPair} {σ : PointPair →L[ℝ] ℝ}

/-- The pieces of `F` are smooth up to the boundary of the cube. -/
structure Regularised (w : Fin n → PointPair → ℝ) (Φ : Fin n → PointPair → PointPair) (σ : PointPair →L[ℝ] ℝ) (F : PointPair → R) : Prop where
  meas : AEStronglyMeasurable F μ4
  piece : ∀ k, ∃ G : PointPair → R, SmoothCube G ∧ ∀ p ∈ Cube, 0 < σ p → w k p • F (Φ k p) = G p

theorem Regularised.sum {ι : Type} (s : Finset ι) (F : ι → PointPair → R) (h : ∀ i ∈ s, Regularised w Φ σ (F i)) :
    Regularised w Φ σ fun p => ∑ i ∈ s, F i p := by
  refine ⟨?_, fun k => ?_⟩
  · have := Finset.aestronglyMeasurable_sum s fun i hi => (h i hi).meas
    convert this using 1
    funext p
    simp
  · classical
    choose! G hG using fun i (hi : i ∈ s) => (h i hi).piece k
    refine ⟨fun p => ∑ i ∈ s, G i p, fun p hp => ContDiffAt.sum fun i hi => (hG i hi).1 p hp, fun p hp hs => ?_⟩
    rw [smul_sum]
    exact sum_congr rfl fun i hi => (hG i hi).2 p hp hs

theorem Regularised.const (c : R) {F : PointPair → R} (h : Regularised w Φ σ F) : Regularised w Φ σ fun p => c * F p := by
  refine ⟨h.meas.const_mul c, fun k => ?_⟩
  obtain ⟨G, g1, g2⟩ := h.piece k
  refine ⟨fun p => c * G p, fun p hp => contDiffAt_const.mul (g1 p hp), fun p hp hs => ?_⟩
  show _ = c * G p
  rw [← g2 p hp hs, mul_smul_comm]

/-- Such functions are integrable. -/
theorem Regularised.integrable {F : PointPair → R} (h : Regularised w Φ σ F) (S : Subst w Φ) (hσ : ∀ᵐ p ∂μ4, 0 < σ p) : Integrable F μ4 := by
  refine S.bounded F h.meas fun k => ?_
  obtain ⟨G, g1, g2⟩ := h.piece k
  have gc : ContinuousOn G Cube := fun p hp => (g1 p hp).continuousAt.continuousWithinAt
  obtain ⟨C, hC⟩ := isCompact_Icc.exists_bound_of_continuousOn gc
  refine ⟨C, ?_⟩
  filter_upwards [hσ, mem_ae] with p hs hp
  rw [g2 p hp hs]
  exact hC p hp

/-- The quadrature of the pieces with the Gauss rules of the library converges to the integral, faster than every power. -/
theorem Regularised.rate {F : PointPair → R} (h : Regularised w Φ σ F) (S : Subst w Φ) (hσ : ∀ᵐ p ∂μ4, 0 < σ p)
    (hi : ∀ p : PointPair, InSquare p.1 → InSquare p.2 → 0 < σ p) (es : EigenSolver) (hes : SolverCorrect es) (κ : Nat) : ∃ C, 0 ≤ C ∧
    ∀ order i, i ≤ order → ‖pairQuad (gaussSquare es order i) (fun p => ∑ k, w k p • F (Φ k p)) - ∫ p, F p ∂μ4‖ ≤ C / ((i : ℝ) + 1) ^ κ := by
  choose G g1 g2 using h.piece
  have gs : SmoothCube fun p => ∑ k, G k p := fun p hp => ContDiffAt.sum fun k _ => g1 k p hp
  obtain ⟨C, hC, hr⟩ := Smooth.gauss_rate es hes _ (smooth_pair gs) κ
  refine ⟨C, hC, fun order i ho => ?_⟩
  have eI : ∫ p, F p ∂μ4 = Interpol.integral4 fun y z => ∑ k, G k (y, z) := by
    rw [(S.integral F (h.integrable S hσ)).2, integral4_eq (fun p => ∑ k, G k p) (smooth_integrable gs)]
    refine integral_congr_ae ?_
    filter_upwards [hσ, mem_ae] with p hs hp
    exact Finset.sum_congr rfl fun k _ => g2 k p hp hs
  obtain ⟨a1, a2⟩ := C47_all es hes order i ho
  have eQ : gaussSquare es order i = tensorRule (gaussLegendre es order i) := by
    rw [gaussSquare, gaussLegendre, (C46_select _ order i ho).1, (C46_select _ order i ho).2]
  have ins : ∀ k < (tensorRule (gaussLegendre es order i)).size, InSquare ((tensorRule (gaussLegendre es order i)).xi k) := by
    intro k hk
    have hk' : k < (gaussLegendre es order i).size * (gaussLegendre es order i).size := hk
    have h0 : 0 < (gaussLegendre es order i).size := by rw [a1]; omega
    have b1 := a2 (k / (gaussLegendre es order i).size) (by rw [← a1]; exact (Nat.div_lt_iff_lt_mul h0).2 hk')
    have b2 := a2 (k % (gaussLegendre es order i).size) (by rw [← a1]; exact Nat.mod_lt _ h0)
    exact ⟨b1.1, b1.2.1, b2.1, b2.2.1⟩
  have eP : pairQuad (gaussSquare es order i) (fun p => ∑ k, w k p • F (Φ k p)) =
      quadSquare (gaussLegendre es order i) fun y => quadSquare (gaussLegendre es order i) fun z => ∑ k, G k (y, z) := by
    rw [← pairQuad_tensor _ fun p => ∑ k, G k p, eQ]
    unfold pairQuad
    refine sum_congr rfl fun j hj => sum_congr rfl fun l hl => ?_
    have j1 := ins j (mem_range.1 hj)
    have l1 := ins l (mem_range.1 hl)
    congr 1
    refine sum_congr rfl fun k _ => g2 k _ (mem_cube.2 ?_) (hi _ j1 l1)
    exact ⟨⟨⟨j1.1.le, j1.2.2.1.le⟩, l1.1.le, l1.2.2.1.le⟩, ⟨j1.2.1.le, j1.2.2.2.le⟩, l1.2.1.le, l1.2.2.2.le⟩
  rw [eP, eI]
  exact hr order i ho

end Bembel.Singular
