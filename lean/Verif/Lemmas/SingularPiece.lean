import Mathlib.Analysis.InnerProductSpace.Calculus
import Mathlib.Analysis.RCLike.Basic
import Verif.Lemmas.Hadamard
import Verif.Lemmas.SmoothKernel
import Verif.Lemmas.DuffyIntegral
/-! # One piece of a substitution: the weight cancels the singularity -/

namespace Bembel.Singular
open scoped ContDiff
open Props Duffy

variable {R : Type} [RCLike R]

/-- Smooth at all points of the cube. -/
def SmoothCube {E : Type} [NormedAddCommGroup E] [NormedSpace ℝ E] (G : PointPair → E) : Prop := ∀ p ∈ Cube, ContDiffAt ℝ ∞ G p

theorem coe_smooth {X : Type} [NormedAddCommGroup X] [NormedSpace ℝ X] {f : X → ℝ} {x : X} (hf : ContDiffAt ℝ ∞ f x) :
    ContDiffAt ℝ ∞ (fun y => ((f y : ℝ) : R)) x :=
  (RCLike.ofRealCLM (K := R)).contDiff.contDiffAt.comp x hf

theorem div_smooth {X : Type} [NormedAddCommGroup X] [NormedSpace ℝ X] {f g : X → R} {x : X} (hf : ContDiffAt ℝ ∞ f x)
    (hg : ContDiffAt ℝ ∞ g x) (h : g x ≠ 0) : ContDiffAt ℝ ∞ (fun y => f y / g y) x := by
  simp only [div_eq_mul_inv]
  exact hf.mul (hg.inv h)

/-- The coordinate which measures the distance from the singularity. -/
structure Radial (σ : PointPair →L[ℝ] ℝ) (e : PointPair) : Prop where
  one : σ e = 1
  nonneg : ∀ p ∈ Cube, 0 ≤ σ p
  proj : ∀ p ∈ Cube, p - σ p • e ∈ Cube
  push : ∀ p ∈ Cube, σ p = 0 → ∀ τ : ℝ, 0 ≤ τ → τ ≤ 1 → p + τ • e ∈ Cube

/-- The difference of the two points, in the coordinates of a piece. -/
structure Gap (σ : PointPair →L[ℝ] ℝ) (e : PointPair) (Δ : PointPair → V3) : Prop where
  smooth : ContDiff ℝ ∞ Δ
  zero : ∀ p ∈ Cube, Δ (p - σ p • e) = 0
  bound : ∃ c : ℝ, 0 < c ∧ ∀ p ∈ Cube, c * σ p ≤ ‖Δ p‖

variable {σ : PointPair →L[ℝ] ℝ} {e : PointPair} {Δ : PointPair → V3}

/-- The difference is the radial coordinate times a nonvanishing smooth direction. -/
theorem direction (hr : Radial σ e) (hg : Gap σ e Δ) : ∃ D : PointPair → V3, ContDiff ℝ ∞ D ∧ (∀ p ∈ Cube, Δ p = σ p • D p) ∧
    (∀ p ∈ Cube, D p ≠ 0) ∧ ∀ p, σ p = 0 → D p = fderiv ℝ Δ p e := by
  obtain ⟨D, h1, h2, h3⟩ := hadamard σ e hr.one Δ hg.smooth
  have h4 : ∀ p ∈ Cube, Δ p = σ p • D p := fun p hp => by rw [h2 p, hg.zero p hp, zero_add]
  refine ⟨D, h1, h4, ?_, h3⟩
  obtain ⟨c, hc, hb⟩ := hg.bound
  have pos : ∀ p ∈ Cube, 0 < σ p → c ≤ ‖D p‖ := by
    intro p hp hs
    have := hb p hp
    rw [h4 p hp, norm_smul, Real.norm_of_nonneg hs.le, mul_comm] at this
    exact le_of_mul_le_mul_left this hs
  intro p hp h0
  rcases (hr.nonneg p hp).lt_or_eq with hs | hs
  · have := pos p hp hs
    rw [h0, norm_zero] at this
    linarith
  · have ct : Filter.Tendsto (fun τ : ℝ => ‖D (p + τ • e)‖) (nhdsWithin 0 (Set.Ioi 0)) (nhds ‖D (p + (0 : ℝ) • e)‖) := by
      have : Continuous fun τ : ℝ => ‖D (p + τ • e)‖ := (h1.continuous.comp (by fun_prop)).norm
      exact this.continuousAt.continuousWithinAt
    have ge : c ≤ ‖D (p + (0 : ℝ) • e)‖ := by
      refine ge_of_tendsto ct ?_
      filter_upwards [Ioo_mem_nhdsGT (zero_lt_one (α := ℝ))] with τ hτ
      refine pos _ (hr.push p hp hs.symm τ hτ.1.le hτ.2.le) ?_
      rw [map_add, map_smul, hr.one, ← hs]
      simpa using hτ.1
    rw [zero_smul, add_zero, h0, norm_zero] at ge
    linarith

theorem norm_gap {D : PointPair → V3} (hr : Radial σ e) (h : ∀ p ∈ Cube, Δ p = σ p • D p) (p : PointPair) (hp : p ∈ Cube) :
    ‖Δ p‖ = σ p * ‖D p‖ := by
  rw [h p hp, norm_smul, Real.norm_of_nonneg (hr.nonneg p hp)]

/-- Single layer kernels: the first power of the radial coordinate suffices. -/
theorem piece_single (hr : Radial σ e) (hg : Gap σ e Δ) (φ : ℝ → R) (hφ : ContDiff ℝ ∞ φ) (B : PointPair → R) (hB : SmoothCube B) :
    ∃ G : PointPair → R, SmoothCube G ∧ ∀ p ∈ Cube, 0 < σ p → σ p • (B p * (φ ‖Δ p‖ / (‖Δ p‖ : ℝ))) = G p := by
  obtain ⟨D, h1, h2, h3, -⟩ := direction hr hg
  refine ⟨fun p => B p * (φ (σ p * ‖D p‖) / (‖D p‖ : ℝ)), ?_, ?_⟩
  · intro p hp
    have n := h1.contDiffAt.norm ℝ (h3 p hp)
    refine (hB p hp).mul (div_smooth (hφ.contDiffAt.comp p (σ.contDiff.contDiffAt.mul n)) (coe_smooth n) ?_)
    exact_mod_cast norm_ne_zero_iff.2 (h3 p hp)
  · intro p hp hs
    rw [norm_gap hr h2 p hp, RCLike.real_smul_eq_coe_mul]
    have a : ((σ p : ℝ) : R) ≠ 0 := by exact_mod_cast hs.ne'
    have b : ((‖D p‖ : ℝ) : R) ≠ 0 := by exact_mod_cast norm_ne_zero_iff.2 (h3 p hp)
    push_cast
    field_simp

/-- Double layer kernels: the second power of the radial coordinate suffices. -/
theorem piece_double (hr : Radial σ e) (hg : Gap σ e Δ) (φ : ℝ → R) (hφ : ContDiff ℝ ∞ φ) (B : PointPair → R) (hB : SmoothCube B)
    (N : PointPair → V3) (hN : ContDiff ℝ ∞ N) :
    ∃ G : PointPair → R, SmoothCube G ∧ ∀ p ∈ Cube, 0 < σ p →
      σ p ^ 2 • (B p * (((inner ℝ (Δ p) (N p) : ℝ) : R) * φ ‖Δ p‖ / ((‖Δ p‖ * ‖Δ p‖ * ‖Δ p‖ : ℝ) : R))) = G p := by
  obtain ⟨D, h1, h2, h3, -⟩ := direction hr hg
  refine ⟨fun p => B p * (((inner ℝ (D p) (N p) : ℝ) : R) * φ (σ p * ‖D p‖) / ((‖D p‖ * ‖D p‖ * ‖D p‖ : ℝ) : R)), ?_, ?_⟩
  · intro p hp
    have n := h1.contDiffAt.norm ℝ (h3 p hp)
    refine (hB p hp).mul (div_smooth ((coe_smooth (h1.contDiffAt.inner ℝ hN.contDiffAt)).mul
      (hφ.contDiffAt.comp p (σ.contDiff.contDiffAt.mul n))) (coe_smooth ((n.mul n).mul n)) ?_)
    have := norm_ne_zero_iff.2 (h3 p hp)
    exact_mod_cast mul_ne_zero (mul_ne_zero this this) this
  · intro p hp hs
    rw [norm_gap hr h2 p hp, RCLike.real_smul_eq_coe_mul, h2 p hp, inner_smul_left]
    have a : ((σ p : ℝ) : R) ≠ 0 := by exact_mod_cast hs.ne'
    have b : ((‖D p‖ : ℝ) : R) ≠ 0 := by exact_mod_cast norm_ne_zero_iff.2 (h3 p hp)
    simp only [conj_trivial]
    push_cast
    field_simp

/-- Double layer kernels, if the normal is orthogonal to the direction at the singularity: the first power suffices. -/
theorem piece_tangent (hr : Radial σ e) (hg : Gap σ e Δ) (φ : ℝ → R) (hφ : ContDiff ℝ ∞ φ) (B : PointPair → R) (hB : SmoothCube B)
    (N : PointPair → V3) (hN : ContDiff ℝ ∞ N) (ht : ∀ p ∈ Cube, σ p = 0 → inner ℝ (fderiv ℝ Δ p e) (N p) = 0) :
    ∃ G : PointPair → R, SmoothCube G ∧ ∀ p ∈ Cube, 0 < σ p →
      σ p • (B p * (((inner ℝ (Δ p) (N p) : ℝ) : R) * φ ‖Δ p‖ / ((‖Δ p‖ * ‖Δ p‖ * ‖Δ p‖ : ℝ) : R))) = G p := by
  obtain ⟨D, h1, h2, h3, h4⟩ := direction hr hg
  obtain ⟨Q, q1, q2, -⟩ := hadamard σ e hr.one (fun p => inner ℝ (D p) (N p)) (h1.inner ℝ hN)
  have s0 : ∀ p, σ (p - σ p • e) = 0 := fun p => by rw [map_sub, map_smul, hr.one, smul_eq_mul, mul_one, sub_self]
  have q3 : ∀ p ∈ Cube, inner ℝ (D p) (N p) = σ p * Q p := by
    intro p hp
    have := q2 p
    rw [h4 _ (s0 p), ht _ (hr.proj p hp) (s0 p), zero_add, smul_eq_mul] at this
    exact this
  refine ⟨fun p => B p * (((Q p : ℝ) : R) * φ (σ p * ‖D p‖) / ((‖D p‖ * ‖D p‖ * ‖D p‖ : ℝ) : R)), ?_, ?_⟩
  · intro p hp
    have n := h1.contDiffAt.norm ℝ (h3 p hp)
    refine (hB p hp).mul (div_smooth ((coe_smooth q1.contDiffAt).mul
      (hφ.contDiffAt.comp p (σ.contDiff.contDiffAt.mul n))) (coe_smooth ((n.mul n).mul n)) ?_)
    have := norm_ne_zero_iff.2 (h3 p hp)
    exact_mod_cast mul_ne_zero (mul_ne_zero this this) this
  · intro p hp hs
    rw [norm_gap hr h2 p hp, RCLike.real_smul_eq_coe_mul, h2 p hp, inner_smul_left, q3 p hp]
    have a : ((σ p : ℝ) : R) ≠ 0 := by exact_mod_cast hs.ne'
    have b : ((‖D p‖ : ℝ) : R) ≠ 0 := by exact_mod_cast norm_ne_zero_iff.2 (h3 p hp)
    simp only [conj_trivial]
    push_cast
    field_simp

end Bembel.Singular
