import Verif.Lemmas.SingularCases
/-! # The kernels of the operators at the singularity -/

namespace Bembel.Singular
open scoped ContDiff
open Props Duffy MeasureTheory Finset H2 Spec

variable {R : Type} [RCLike R]

/-- The tangents at two points. -/
abbrev Tangents := (V3 × V3) × (V3 × V3)

/-- Functions of the tangents that are smooth where the surface is regular. -/
def SmoothTangents (A : Tangents → R) : Prop := ∀ q : Tangents, cross3 q.1.1 q.1.2 ≠ 0 → cross3 q.2.1 q.2.2 ≠ 0 → ContDiffAt ℝ ∞ A q

/-- The tangents at two surface points. -/
def tangents (p1 p2 : SurfPt) : Tangents := ((p1.dx, p1.dy), (p2.dx, p2.dy))

/-- The kernels of the operator behave like the inverse distance, or like the derivative of the inverse distance in direction of one of the two
normals. -/
def SingularKernel (op : Operator R) : Prop := ∀ α β, ∃ (A : Tangents → R) (φ : ℝ → R), SmoothTangents A ∧ ContDiff ℝ ∞ φ ∧
  ((∀ p1 p2, op.fmm p1 p2 α β = A (tangents p1 p2) * (φ ‖p1.f - p2.f‖ / ((‖p1.f - p2.f‖ : ℝ) : R))) ∨
   (∀ p1 p2, op.fmm p1 p2 α β = A (tangents p1 p2) * (((inner ℝ (p1.f - p2.f) (cross3 p2.dx p2.dy) : ℝ) : R) * φ ‖p1.f - p2.f‖ /
      ((‖p1.f - p2.f‖ * ‖p1.f - p2.f‖ * ‖p1.f - p2.f‖ : ℝ) : R))) ∨
   (∀ p1 p2, op.fmm p1 p2 α β = A (tangents p1 p2) * (((inner ℝ (p1.f - p2.f) (cross3 p1.dx p1.dy) : ℝ) : R) * φ ‖p1.f - p2.f‖ /
      ((‖p1.f - p2.f‖ * ‖p1.f - p2.f‖ * ‖p1.f - p2.f‖ : ℝ) : R))))

section
variable (q : Tangents)
theorem us : ContDiffAt ℝ ∞ (fun q : Tangents => q.1.1) q := by fun_prop
theorem vs : ContDiffAt ℝ ∞ (fun q : Tangents => q.1.2) q := by fun_prop
theorem us' : ContDiffAt ℝ ∞ (fun q : Tangents => q.2.1) q := by fun_prop
theorem vs' : ContDiffAt ℝ ∞ (fun q : Tangents => q.2.2) q := by fun_prop
theorem ns : ContDiffAt ℝ ∞ (fun q : Tangents => cross3 q.1.1 q.1.2) q := Interpol.cross_smooth (us q) (vs q)
theorem ns' : ContDiffAt ℝ ∞ (fun q : Tangents => cross3 q.2.1 q.2.2) q := Interpol.cross_smooth (us' q) (vs' q)
end

theorem smooth_zero : SmoothTangents (fun _ => (0 : R)) := fun _ _ _ => contDiffAt_const

/-- Components without kernel. -/
theorem zero_case {op : Operator R} {α β : Nat} (h : ∀ p1 p2, op.fmm p1 p2 α β = 0) : ∃ (A : Tangents → R) (φ : ℝ → R), SmoothTangents A ∧ ContDiff ℝ ∞ φ ∧
  ((∀ p1 p2, op.fmm p1 p2 α β = A (tangents p1 p2) * (φ ‖p1.f - p2.f‖ / ((‖p1.f - p2.f‖ : ℝ) : R))) ∨
   (∀ p1 p2, op.fmm p1 p2 α β = A (tangents p1 p2) * (((inner ℝ (p1.f - p2.f) (cross3 p2.dx p2.dy) : ℝ) : R) * φ ‖p1.f - p2.f‖ /
      ((‖p1.f - p2.f‖ * ‖p1.f - p2.f‖ * ‖p1.f - p2.f‖ : ℝ) : R))) ∨
   (∀ p1 p2, op.fmm p1 p2 α β = A (tangents p1 p2) * (((inner ℝ (p1.f - p2.f) (cross3 p1.dx p1.dy) : ℝ) : R) * φ ‖p1.f - p2.f‖ /
      ((‖p1.f - p2.f‖ * ‖p1.f - p2.f‖ * ‖p1.f - p2.f‖ : ℝ) : R)))) :=
  ⟨_, fun _ => 0, smooth_zero, contDiff_const, Or.inl fun p1 p2 => by rw [h, zero_mul]⟩

open Interpol in
theorem k_laplaceSL : SingularKernel Operator.laplaceSL := fun _ _ =>
  ⟨fun q => ‖cross3 q.1.1 q.1.2‖ * ‖cross3 q.2.1 q.2.2‖, fun _ => 1 / 4 / Real.pi, fun q h1 h2 => ((ns q).norm ℝ h1).mul ((ns' q).norm ℝ h2), contDiff_const,
    Or.inl fun p1 p2 => by
      simp only [Operator.laplaceSL, Kernel.laplace, tangents, RCLike.ofReal_real_eq_id, id]
      ring⟩

theorem k_laplaceDL : SingularKernel Operator.laplaceDL := fun _ _ =>
  ⟨fun q => ‖cross3 q.1.1 q.1.2‖, fun _ => 1 / 4 / Real.pi, fun q h1 _ => (ns q).norm ℝ h1, contDiff_const,
    Or.inr (Or.inl fun p1 p2 => by
      simp only [Operator.laplaceDL, Kernel.laplaceDL, tangents, RCLike.ofReal_real_eq_id, id]
      ring)⟩

theorem k_laplaceADL : SingularKernel Operator.laplaceADL := fun _ _ =>
  ⟨fun q => ‖cross3 q.2.1 q.2.2‖, fun _ => -1 / 4 / Real.pi, fun q _ h2 => (ns' q).norm ℝ h2, contDiff_const,
    Or.inr (Or.inr fun p1 p2 => by
      simp only [Operator.laplaceADL, Kernel.laplaceADL, tangents, RCLike.ofReal_real_eq_id, id]
      ring)⟩

theorem k_laplaceHyp : SingularKernel Operator.laplaceHyp := fun α β => by
  match α, β with
  | 0, 0 => exact ⟨fun q => inner ℝ q.1.2 q.2.2, fun _ => 1 / 4 / Real.pi, fun q _ _ => (vs q).inner ℝ (vs' q), contDiff_const, Or.inl fun p1 p2 => by
      simp only [Operator.laplaceHyp, Kernel.laplace, tangents, RCLike.ofReal_real_eq_id, id]; ring⟩
  | 0, 1 => exact ⟨fun q => -inner ℝ q.1.2 q.2.1, fun _ => 1 / 4 / Real.pi, fun q _ _ => ((vs q).inner ℝ (us' q)).neg, contDiff_const, Or.inl fun p1 p2 => by
      simp only [Operator.laplaceHyp, Kernel.laplace, tangents, RCLike.ofReal_real_eq_id, id]; ring⟩
  | 1, 0 => exact ⟨fun q => -inner ℝ q.1.1 q.2.2, fun _ => 1 / 4 / Real.pi, fun q _ _ => ((us q).inner ℝ (vs' q)).neg, contDiff_const, Or.inl fun p1 p2 => by
      simp only [Operator.laplaceHyp, Kernel.laplace, tangents, RCLike.ofReal_real_eq_id, id]; ring⟩
  | 1, 1 => exact ⟨fun q => inner ℝ q.1.1 q.2.1, fun _ => 1 / 4 / Real.pi, fun q _ _ => (us q).inner ℝ (us' q), contDiff_const, Or.inl fun p1 p2 => by
      simp only [Operator.laplaceHyp, Kernel.laplace, tangents, RCLike.ofReal_real_eq_id, id]; ring⟩
  | a + 2, b => exact zero_case fun p1 p2 => by simp only [Operator.laplaceHyp]
  | 0, b + 2 => exact zero_case fun p1 p2 => by simp only [Operator.laplaceHyp]
  | 1, b + 2 => exact zero_case fun p1 p2 => by simp only [Operator.laplaceHyp]

/-- The oscillating factor. -/
noncomputable def osc (k : ℂ) (r : ℝ) : ℂ := Complex.exp (-Complex.I * k * r) / 4 / Real.pi

theorem real_smooth : ContDiff ℝ ∞ fun r : ℝ => (r : ℂ) := Complex.ofRealCLM.contDiff

theorem osc_smooth (k : ℂ) : ContDiff ℝ ∞ (osc k) := by
  unfold osc
  exact ((contDiff_const.mul real_smooth).cexp.div_const 4).div_const _

theorem osc_smooth' (k : ℂ) (c : ℂ) : ContDiff ℝ ∞ fun r => c * (osc k r * (1 + Complex.I * k * r)) :=
  contDiff_const.mul ((osc_smooth k).mul (contDiff_const.add (contDiff_const.mul real_smooth)))

theorem cofR (x : ℝ) : ((RCLike.ofReal x : ℂ)) = (x : ℂ) := rfl

open Interpol in
theorem k_helmholtzSL (k : ℂ) : SingularKernel (Operator.helmholtzSL k) := fun _ _ =>
  ⟨fun q => (‖cross3 q.1.1 q.1.2‖ : ℂ) * (‖cross3 q.2.1 q.2.2‖ : ℂ), osc k,
    fun q h1 h2 => (ofReal_smooth ((ns q).norm ℝ h1)).mul (ofReal_smooth ((ns' q).norm ℝ h2)), osc_smooth k,
    Or.inl fun p1 p2 => by
      simp only [Operator.helmholtzSL, Kernel.helmholtz, tangents, osc, cofR]
      ring⟩

open Interpol in
theorem k_helmholtzDL (k : ℂ) : SingularKernel (Operator.helmholtzDL k) := fun _ _ =>
  ⟨fun q => (‖cross3 q.1.1 q.1.2‖ : ℂ), _, fun q h1 _ => ofReal_smooth ((ns q).norm ℝ h1), osc_smooth' k 1,
    Or.inr (Or.inl fun p1 p2 => by
      simp only [Operator.helmholtzDL, Kernel.helmholtzDL, tangents, osc, cofR]
      ring)⟩

open Interpol in
theorem k_helmholtzADL (k : ℂ) : SingularKernel (Operator.helmholtzADL k) := fun _ _ =>
  ⟨fun q => (‖cross3 q.2.1 q.2.2‖ : ℂ), _, fun q _ h2 => ofReal_smooth ((ns' q).norm ℝ h2), osc_smooth' k (-1),
    Or.inr (Or.inr fun p1 p2 => by
      simp only [Operator.helmholtzADL, Kernel.helmholtzADL, tangents, osc, cofR]
      push_cast
      ring)⟩

open Interpol in
theorem k_helmholtzHyp (k : ℂ) : SingularKernel (Operator.helmholtzHyp k) := fun α β => by
  match α, β with
  | 0, 0 => exact ⟨fun q => -(k * k) * ((inner ℝ (cross3 q.1.1 q.1.2) (cross3 q.2.1 q.2.2) : ℝ) : ℂ), osc k,
      fun q _ _ => contDiffAt_const.mul (ofReal_smooth ((ns q).inner ℝ (ns' q))), osc_smooth k, Or.inl fun p1 p2 => by
      simp only [Operator.helmholtzHyp, Kernel.helmholtz, tangents, osc, cofR]; ring⟩
  | 1, 1 => exact ⟨fun q => ((inner ℝ q.1.2 q.2.2 : ℝ) : ℂ), osc k, fun q _ _ => ofReal_smooth ((vs q).inner ℝ (vs' q)), osc_smooth k, Or.inl fun p1 p2 => by
      simp only [Operator.helmholtzHyp, Kernel.helmholtz, tangents, osc, cofR]; ring⟩
  | 1, 2 => exact ⟨fun q => -((inner ℝ q.1.2 q.2.1 : ℝ) : ℂ), osc k, fun q _ _ => (ofReal_smooth ((vs q).inner ℝ (us' q))).neg, osc_smooth k, Or.inl fun p1 p2 => by
      simp only [Operator.helmholtzHyp, Kernel.helmholtz, tangents, osc, cofR]; ring⟩
  | 2, 1 => exact ⟨fun q => -((inner ℝ q.1.1 q.2.2 : ℝ) : ℂ), osc k, fun q _ _ => (ofReal_smooth ((us q).inner ℝ (vs' q))).neg, osc_smooth k, Or.inl fun p1 p2 => by
      simp only [Operator.helmholtzHyp, Kernel.helmholtz, tangents, osc, cofR]; ring⟩
  | 2, 2 => exact ⟨fun q => ((inner ℝ q.1.1 q.2.1 : ℝ) : ℂ), osc k, fun q _ _ => ofReal_smooth ((us q).inner ℝ (us' q)), osc_smooth k, Or.inl fun p1 p2 => by
      simp only [Operator.helmholtzHyp, Kernel.helmholtz, tangents, osc, cofR]; ring⟩
  | 0, b + 1 => exact zero_case fun p1 p2 => by simp only [Operator.helmholtzHyp]
  | 1, 0 => exact zero_case fun p1 p2 => by simp only [Operator.helmholtzHyp]
  | 2, 0 => exact zero_case fun p1 p2 => by simp only [Operator.helmholtzHyp]
  | 1, b + 3 => exact zero_case fun p1 p2 => by simp only [Operator.helmholtzHyp]
  | 2, b + 3 => exact zero_case fun p1 p2 => by simp only [Operator.helmholtzHyp]
  | a + 3, b => exact zero_case fun p1 p2 => by simp only [Operator.helmholtzHyp]

open Interpol in
theorem k_maxwellSL (k : ℂ) : SingularKernel (Operator.maxwellSL k) := fun α β => by
  have d : ∀ α β, (∀ p1 p2, (Operator.maxwellSL k).fmm p1 p2 α β = -Kernel.helmholtz k p1.f p2.f / (k * k)) → _ := fun α β h =>
    (⟨fun _ => -(1 / (k * k)), osc k, fun q _ _ => contDiffAt_const, osc_smooth k, Or.inl fun p1 p2 => by
      rw [h]; simp only [Kernel.helmholtz, tangents, osc, cofR]; ring⟩ : ∃ (A : Tangents → ℂ) (φ : ℝ → ℂ), SmoothTangents A ∧ ContDiff ℝ ∞ φ ∧
  ((∀ p1 p2, (Operator.maxwellSL k).fmm p1 p2 α β = A (tangents p1 p2) * (φ ‖p1.f - p2.f‖ / ((‖p1.f - p2.f‖ : ℝ) : ℂ))) ∨
   (∀ p1 p2, (Operator.maxwellSL k).fmm p1 p2 α β = A (tangents p1 p2) * (((inner ℝ (p1.f - p2.f) (cross3 p2.dx p2.dy) : ℝ) : ℂ) * φ ‖p1.f - p2.f‖ /
      ((‖p1.f - p2.f‖ * ‖p1.f - p2.f‖ * ‖p1.f - p2.f‖ : ℝ) : ℂ))) ∨
   (∀ p1 p2, (Operator.maxwellSL k).fmm p1 p2 α β = A (tangents p1 p2) * (((inner ℝ (p1.f - p2.f) (cross3 p1.dx p1.dy) : ℝ) : ℂ) * φ ‖p1.f - p2.f‖ /
      ((‖p1.f - p2.f‖ * ‖p1.f - p2.f‖ * ‖p1.f - p2.f‖ : ℝ) : ℂ)))))
  match α, β with
  | 0, 0 => exact ⟨fun q => ((inner ℝ q.1.1 q.2.1 : ℝ) : ℂ), osc k, fun q _ _ => ofReal_smooth ((us q).inner ℝ (us' q)), osc_smooth k, Or.inl fun p1 p2 => by
      simp only [Operator.maxwellSL, Kernel.helmholtz, tangents, osc, cofR]; ring⟩
  | 0, 2 => exact ⟨fun q => ((inner ℝ q.1.1 q.2.2 : ℝ) : ℂ), osc k, fun q _ _ => ofReal_smooth ((us q).inner ℝ (vs' q)), osc_smooth k, Or.inl fun p1 p2 => by
      simp only [Operator.maxwellSL, Kernel.helmholtz, tangents, osc, cofR]; ring⟩
  | 2, 0 => exact ⟨fun q => ((inner ℝ q.1.2 q.2.1 : ℝ) : ℂ), osc k, fun q _ _ => ofReal_smooth ((vs q).inner ℝ (us' q)), osc_smooth k, Or.inl fun p1 p2 => by
      simp only [Operator.maxwellSL, Kernel.helmholtz, tangents, osc, cofR]; ring⟩
  | 2, 2 => exact ⟨fun q => ((inner ℝ q.1.2 q.2.2 : ℝ) : ℂ), osc k, fun q _ _ => ofReal_smooth ((vs q).inner ℝ (vs' q)), osc_smooth k, Or.inl fun p1 p2 => by
      simp only [Operator.maxwellSL, Kernel.helmholtz, tangents, osc, cofR]; ring⟩
  | 1, 1 => exact d 1 1 fun p1 p2 => rfl
  | 1, 3 => exact d 1 3 fun p1 p2 => rfl
  | 3, 1 => exact d 3 1 fun p1 p2 => rfl
  | 3, 3 => exact d 3 3 fun p1 p2 => rfl
  | 0, 1 => exact zero_case fun p1 p2 => by simp only [Operator.maxwellSL]
  | 0, b + 3 => exact zero_case fun p1 p2 => by simp only [Operator.maxwellSL]
  | 1, 0 => exact zero_case fun p1 p2 => by simp only [Operator.maxwellSL]
  | 1, 2 => exact zero_case fun p1 p2 => by simp only [Operator.maxwellSL]
  | 1, b + 4 => exact zero_case fun p1 p2 => by simp only [Operator.maxwellSL]
  | 2, 1 => exact zero_case fun p1 p2 => by simp only [Operator.maxwellSL]
  | 2, b + 3 => exact zero_case fun p1 p2 => by simp only [Operator.maxwellSL]
  | 3, 0 => exact zero_case fun p1 p2 => by simp only [Operator.maxwellSL]
  | 3, 2 => exact zero_case fun p1 p2 => by simp only [Operator.maxwellSL]
  | 3, b + 4 => exact zero_case fun p1 p2 => by simp only [Operator.maxwellSL]
  | a + 4, b => exact zero_case fun p1 p2 => by simp only [Operator.maxwellSL]

/-- A smooth regular surface element: points and tangents. -/
structure Sheet (X U V : ℝ × ℝ → V3) : Prop where
  point : ContDiff ℝ ∞ X
  first : ContDiff ℝ ∞ U
  second : ContDiff ℝ ∞ V
  regular : ∀ x, ClosedSquare x → cross3 (U x) (V x) ≠ 0

/-- The integrand for two elements with given points and tangents. -/
noncomputable def paired (op : Operator R) (X U V Y U' V' : ℝ × ℝ → V3) (f g : Nat → ℝ × ℝ → ℝ) (i j : Nat) (p : PointPair) : R :=
  ∑ α ∈ range op.nc, ∑ β ∈ range op.nc, algebraMap ℝ R (f α p.1 * g β p.2) *
    op.fmm ⟨(0, 0), 1, X p.1, U p.1, V p.1⟩ ⟨(0, 0), 1, Y p.2, U' p.2, V' p.2⟩ (i * op.nc + α) (j * op.nc + β)

theorem cross_global {E : Type} [NormedAddCommGroup E] [NormedSpace ℝ E] {f g : E → V3} (hf : ContDiff ℝ ∞ f) (hg : ContDiff ℝ ∞ g) :
    ContDiff ℝ ∞ fun x => cross3 (f x) (g x) :=
  contDiff_iff_contDiffAt.2 fun _ => Interpol.cross_smooth hf.contDiffAt hg.contDiffAt

variable {n : Nat} {w : Fin n → PointPair → ℝ} {Φ : Fin n → PointPair → PointPair} {σ : PointPair →L[ℝ] ℝ}

theorem paired_regularised (op : Operator R) (hop : SingularKernel op) (X U V Y U' V' : ℝ × ℝ → V3) (h1 : Sheet X U V) (h2 : Sheet Y U' V')
    (f g : Nat → ℝ × ℝ → ℝ) (hf : ∀ α, ContDiff ℝ ∞ (f α)) (hg : ∀ β, ContDiff ℝ ∞ (g β)) (i j : Nat)
    (hS : ∀ (φ : ℝ → R), ContDiff ℝ ∞ φ → ∀ B : PointPair → R, SmoothCube B →
      Regularised w Φ σ fun p => B p * (φ ‖X p.1 - Y p.2‖ / ((‖X p.1 - Y p.2‖ : ℝ) : R)))
    (hD : ∀ (φ : ℝ → R), ContDiff ℝ ∞ φ → ∀ B : PointPair → R, SmoothCube B → ∀ N : PointPair → V3,
      (N = (fun p => cross3 (U p.1) (V p.1)) ∨ N = fun p => cross3 (U' p.2) (V' p.2)) →
      Regularised w Φ σ fun p => B p * (((inner ℝ (X p.1 - Y p.2) (N p) : ℝ) : R) * φ ‖X p.1 - Y p.2‖ /
      ((‖X p.1 - Y p.2‖ * ‖X p.1 - Y p.2‖ * ‖X p.1 - Y p.2‖ : ℝ) : R))) :
    Regularised w Φ σ (paired op X U V Y U' V' f g i j) := by
  unfold paired
  refine Regularised.sum _ _ fun α _ => Regularised.sum _ _ fun β _ => ?_
  obtain ⟨A, φ, hA, hφ, h⟩ := hop (i * op.nc + α) (j * op.nc + β)
  have hB : SmoothCube fun p : PointPair => algebraMap ℝ R (f α p.1 * g β p.2) * A ((U p.1, V p.1), (U' p.2, V' p.2)) := by
    intro p hp
    obtain ⟨q1, q2⟩ := cube_square hp
    have a : ContDiffAt ℝ ∞ (fun p : PointPair => ((U p.1, V p.1), (U' p.2, V' p.2))) p :=
      (((h1.first.comp contDiff_fst).prodMk (h1.second.comp contDiff_fst)).prodMk ((h2.first.comp contDiff_snd).prodMk (h2.second.comp contDiff_snd))).contDiffAt
    have b : ContDiffAt ℝ ∞ (fun p : PointPair => f α p.1 * g β p.2) p := (((hf α).comp contDiff_fst).mul ((hg β).comp contDiff_snd)).contDiffAt
    exact (coe_smooth b).mul (ContDiffAt.comp p (hA _ (h1.regular _ q1) (h2.regular _ q2)) a)
  rcases h with h | h | h
  · have := hS φ hφ _ hB
    simp only [h, tangents]
    simpa only [mul_assoc] using this
  · have := hD φ hφ _ hB _ (Or.inr rfl)
    simp only [h, tangents]
    simpa only [mul_assoc] using this
  · have := hD φ hφ _ hB _ (Or.inl rfl)
    simp only [h, tangents]
    simpa only [mul_assoc] using this

/-- Identical elements. -/
theorem paired2 (op : Operator R) (hop : SingularKernel op) (X U V : ℝ × ℝ → V3) (h1 : Sheet X U V)
    (f g : Nat → ℝ × ℝ → ℝ) (hf : ∀ α, ContDiff ℝ ∞ (f α)) (hg : ∀ β, ContDiff ℝ ∞ (g β)) (i j : Nat) (c : ℝ) (hc : 0 < c)
    (h : ∀ x y, ClosedSquare x → ClosedSquare y → c * ‖x - y‖ ≤ ‖X x - X y‖)
    (ho : ∀ x, ClosedSquare x → ∀ v, inner ℝ (fderiv ℝ X x v) (cross3 (U x) (V x)) = 0) :
    Regularised w2 Φ2 σ1 (paired op X U V X U V f g i j) := by
  have eqd : ∀ k, ∀ p : PointPair, σ1 p = 0 → (Φ2 k p).1 = (Φ2 k p).2 := by
    intro k p h0
    have h0 : p.1.1 = 0 := h0
    fin_cases k <;> simp [Φ2, a1, b1, a2, b2, h0]
  refine paired_regularised op hop X U V X U V h1 h1 f g hf hg i j
    (fun φ hφ B hB => reg_single radial1 pieces2 le_rfl X X h1.point h1.point (gap2 X h1.point c hc h) φ hφ B hB) fun φ hφ B hB N hN => ?_
  have nS : ContDiff ℝ ∞ N := by
    rcases hN with rfl | rfl
    · exact cross_global (h1.first.comp contDiff_fst) (h1.second.comp contDiff_fst)
    · exact cross_global (h1.first.comp contDiff_snd) (h1.second.comp contDiff_snd)
  refine reg_tangent radial1 pieces2 le_rfl X X h1.point h1.point (gap2 X h1.point c hc h) φ hφ B hB N nS fun k p hp h0 v1 v2 => ?_
  have e := eqd k p h0
  obtain ⟨q1, -⟩ := cube_square (pieces2.cube k p hp)
  have hN' : N (Φ2 k p) = cross3 (U (Φ2 k p).1) (V (Φ2 k p).1) := by
    rcases hN with rfl | rfl
    · rfl
    · simp only [← e]
  rw [hN', ← e, inner_sub_left, ho _ q1, ho _ q1, sub_self]

/-- Common edge. -/
theorem paired3 (op : Operator R) (hop : SingularKernel op) (X U V Y U' V' : ℝ × ℝ → V3) (h1 : Sheet X U V) (h2 : Sheet Y U' V')
    (f g : Nat → ℝ × ℝ → ℝ) (hf : ∀ α, ContDiff ℝ ∞ (f α)) (hg : ∀ β, ContDiff ℝ ∞ (g β)) (i j : Nat) (c : ℝ) (hc : 0 < c)
    (h0 : ∀ x : ℝ, 0 ≤ x → x ≤ 1 → X (x, 0) = Y (1 - x, 0))
    (h : ∀ x y, ClosedSquare x → ClosedSquare y → c * (|x.1 + y.1 - 1| + x.2 + y.2) ≤ ‖X x - Y y‖) :
    Regularised w3 Φ3 σ2 (paired op X U V Y U' V' f g i j) := by
  have gap := gap3 X Y h1.point h2.point c hc h0 h
  refine paired_regularised op hop X U V Y U' V' h1 h2 f g hf hg i j
    (fun φ hφ B hB => reg_single radial2 pieces3 (by norm_num) X Y h1.point h2.point gap φ hφ B hB) fun φ hφ B hB N hN => ?_
  have nS : ContDiff ℝ ∞ N := by
    rcases hN with rfl | rfl
    · exact cross_global (h1.first.comp contDiff_fst) (h1.second.comp contDiff_fst)
    · exact cross_global (h2.first.comp contDiff_snd) (h2.second.comp contDiff_snd)
  exact reg_double radial2 pieces3 le_rfl X Y h1.point h2.point gap φ hφ B hB N nS

/-- Common vertex. -/
theorem paired4 (op : Operator R) (hop : SingularKernel op) (X U V Y U' V' : ℝ × ℝ → V3) (h1 : Sheet X U V) (h2 : Sheet Y U' V')
    (f g : Nat → ℝ × ℝ → ℝ) (hf : ∀ α, ContDiff ℝ ∞ (f α)) (hg : ∀ β, ContDiff ℝ ∞ (g β)) (i j : Nat) (c : ℝ) (hc : 0 < c)
    (h0 : X (0, 0) = Y (0, 0))
    (h : ∀ x y, ClosedSquare x → ClosedSquare y → c * (‖x‖ + ‖y‖) ≤ ‖X x - Y y‖) :
    Regularised w4 Φ4 σ1 (paired op X U V Y U' V' f g i j) := by
  have gap := gap4 X Y h1.point h2.point c hc h0 h
  refine paired_regularised op hop X U V Y U' V' h1 h2 f g hf hg i j
    (fun φ hφ B hB => reg_single radial1 pieces4 (by norm_num) X Y h1.point h2.point gap φ hφ B hB) fun φ hφ B hB N hN => ?_
  have nS : ContDiff ℝ ∞ N := by
    rcases hN with rfl | rfl
    · exact cross_global (h1.first.comp contDiff_fst) (h1.second.comp contDiff_fst)
    · exact cross_global (h2.first.comp contDiff_snd) (h2.second.comp contDiff_snd)
  exact reg_double radial1 pieces4 (by norm_num) X Y h1.point h2.point gap φ hφ B hB N nS

end Bembel.Singular
