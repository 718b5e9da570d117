import Mathlib.LinearAlgebra.Matrix.Adjugate
import Mathlib.LinearAlgebra.Matrix.NonsingularInverse
import Verif.Spec.Motion
import Verif.Model.Operators
/-!
# Motions preserve inner products, norms, cross products and all kernels
-/

namespace Bembel.Spec.Motion
open Matrix

variable (m : Motion)

theorem rot_add (u v : V3) : m.rot (u + v) = m.rot u + m.rot v := by
  ext k; simp [rot, mul_add, Finset.sum_add_distrib]

theorem rot_smul (c : ℝ) (u : V3) : m.rot (c • u) = c • m.rot u := by
  ext k; simp [rot, Finset.mul_sum, mul_left_comm]

theorem rot_neg (u : V3) : m.rot (-u) = -m.rot u := by
  rw [← neg_one_smul ℝ u, rot_smul, neg_one_smul]

theorem rot_sub (u v : V3) : m.rot (u - v) = m.rot u - m.rot v := by
  rw [sub_eq_add_neg, rot_add, rot_neg, ← sub_eq_add_neg]

theorem pos_sub (x y : V3) : m.pos x - m.pos y = m.rot (x - y) := by
  rw [rot_sub]; unfold pos; abel

theorem orth_apply (i j : Fin 3) : m.Q 0 i * m.Q 0 j + m.Q 1 i * m.Q 1 j + m.Q 2 i * m.Q 2 j = if i = j then 1 else 0 := by
  have := congrFun (congrFun m.orth i) j
  rw [Matrix.mul_apply, Fin.sum_univ_three] at this
  simpa [Matrix.one_apply] using this

theorem inner_eq (u v : V3) : inner ℝ u v = u 0 * v 0 + u 1 * v 1 + u 2 * v 2 := by
  rw [PiLp.inner_apply, Fin.sum_univ_three]; simp [mul_comm]

theorem inner_rot (u v : V3) : inner ℝ (m.rot u) (m.rot v) = inner ℝ u v := by
  rw [inner_eq, inner_eq]
  simp only [rot, Fin.sum_univ_three]
  have h := fun i j => m.orth_apply i j
  have h00 := h 0 0
  have h01 := h 0 1
  have h02 := h 0 2
  have h11 := h 1 1
  have h12 := h 1 2
  have h22 := h 2 2
  simp at h00 h01 h02 h11 h12 h22
  linear_combination u 0 * v 0 * h00 + (u 0 * v 1 + u 1 * v 0) * h01 + (u 0 * v 2 + u 2 * v 0) * h02 + u 1 * v 1 * h11 +
    (u 1 * v 2 + u 2 * v 1) * h12 + u 2 * v 2 * h22

theorem norm_rot (u : V3) : ‖m.rot u‖ = ‖u‖ := by
  rw [@norm_eq_sqrt_real_inner V3, @norm_eq_sqrt_real_inner V3, inner_rot]

/-- For a rotation, the matrix of cofactors is the matrix itself. -/
theorem adjugate_eq : m.Q.adjugate = m.Qᵀ := by
  have h1 : m.Q * m.Qᵀ = 1 := mul_eq_one_comm.1 m.orth
  have h2 := Matrix.adjugate_mul m.Q
  rw [m.det, one_smul] at h2
  calc m.Q.adjugate = m.Q.adjugate * (m.Q * m.Qᵀ) := by rw [h1, mul_one]
    _ = m.Qᵀ := by rw [← mul_assoc, h2, one_mul]

theorem cross_rot (u v : V3) : cross3 (m.rot u) (m.rot v) = m.rot (cross3 u v) := by
  have h := fun i j => congrFun (congrFun m.adjugate_eq j) i
  simp only [Matrix.transpose_apply, Matrix.adjugate_fin_three, Matrix.of_apply] at h
  have e : ∀ i j, m.Q i j = _ := fun i j => (h i j).symm
  ext k
  fin_cases k
  · simp only [cross3, rot, Fin.sum_univ_three]
    have e0 := h 0 0; have e1 := h 0 1; have e2 := h 0 2
    simp at e0 e1 e2 ⊢
    rw [← e0, ← e1, ← e2]; ring
  · simp only [cross3, rot, Fin.sum_univ_three]
    have e0 := h 1 0; have e1 := h 1 1; have e2 := h 1 2
    simp at e0 e1 e2 ⊢
    rw [← e0, ← e1, ← e2]; ring
  · simp only [cross3, rot, Fin.sum_univ_three]
    have e0 := h 2 0; have e1 := h 2 1; have e2 := h 2 2
    simp at e0 e1 e2 ⊢
    rw [← e0, ← e1, ← e2]; ring

theorem normalized_rot (u : V3) : normalized (m.rot u) = m.rot (normalized u) := by
  unfold normalized
  rw [norm_rot]
  split
  · rw [rot_smul]
  · rfl

theorem curl_point (junk : Nat → ℝ) (P : Nat) (p : SurfPt) (i : Nat) :
    SuperSpace.curl junk P (m.point p) i = m.rot (SuperSpace.curl junk P p i) := by
  simp only [SuperSpace.curl, point, cross_rot, norm_rot, rot_smul, rot_add, rot_neg]

theorem curl_interaction {R : Type} [CommRing R] [Algebra ℝ R] (junk : Nat → ℝ) (P : Nat) (c : Nat → Nat → R) (w : R) (p q : SurfPt) :
    SuperSpace.addScaledSurfaceCurlInteraction junk P c w (m.point p) (m.point q) =
      SuperSpace.addScaledSurfaceCurlInteraction junk P c w p q := by
  unfold SuperSpace.addScaledSurfaceCurlInteraction
  simp only [curl_point, inner_rot]

theorem laplace_pos (x y : V3) : Kernel.laplace (m.pos x) (m.pos y) = Kernel.laplace x y := by
  simp only [Kernel.laplace, pos_sub, norm_rot]

theorem helmholtz_pos (k : ℂ) (x y : V3) : Kernel.helmholtz k (m.pos x) (m.pos y) = Kernel.helmholtz k x y := by
  simp only [Kernel.helmholtz, pos_sub, norm_rot]

theorem laplaceSL : Invariant m Operator.laplaceSL := by
  constructor <;> intros <;> (try funext) <;> simp only [Operator.laplaceSL, point, cross_rot, norm_rot, laplace_pos]

theorem laplaceDL : Invariant m Operator.laplaceDL := by
  constructor <;> intros <;> (try funext) <;>
    simp only [Operator.laplaceDL, Kernel.laplaceDL, point, cross_rot, norm_rot, pos_sub, normalized_rot, inner_rot]

theorem laplaceADL : Invariant m Operator.laplaceADL := by
  constructor <;> intros <;> (try funext) <;>
    simp only [Operator.laplaceADL, Kernel.laplaceADL, point, cross_rot, norm_rot, pos_sub, inner_rot]

theorem laplaceHyp : Invariant m Operator.laplaceHyp := by
  constructor <;> intros
  · simp only [Operator.laplaceHyp, curl_interaction]
    simp only [point, laplace_pos, cross_rot, norm_rot]
  · simp only [Operator.laplaceHyp, point, laplace_pos, inner_rot]

theorem helmholtzSL (k : ℂ) : Invariant m (Operator.helmholtzSL k) := by
  constructor <;> intros <;> (try funext) <;> simp only [Operator.helmholtzSL, point, cross_rot, norm_rot, helmholtz_pos]

theorem helmholtzDL (k : ℂ) : Invariant m (Operator.helmholtzDL k) := by
  constructor <;> intros <;> (try funext) <;>
    simp only [Operator.helmholtzDL, Kernel.helmholtzDL, point, cross_rot, norm_rot, pos_sub, inner_rot]

theorem helmholtzADL (k : ℂ) : Invariant m (Operator.helmholtzADL k) := by
  constructor <;> intros <;> (try funext) <;>
    simp only [Operator.helmholtzADL, Kernel.helmholtzADL, point, cross_rot, norm_rot, pos_sub, inner_rot]

theorem helmholtzHyp (k : ℂ) : Invariant m (Operator.helmholtzHyp k) := by
  constructor <;> intros
  · simp only [Operator.helmholtzHyp, curl_interaction]
    simp only [point, helmholtz_pos, cross_rot, norm_rot, inner_rot]
  · simp only [Operator.helmholtzHyp, point, helmholtz_pos, inner_rot, cross_rot]

theorem maxwellSL (k : ℂ) : Invariant m (Operator.maxwellSL k) := by
  constructor <;> intros
  · simp only [Operator.maxwellSL, SuperSpace.addScaledVectorBasisInteraction, point, helmholtz_pos, inner_rot]
  · simp only [Operator.maxwellSL, point, helmholtz_pos, inner_rot]

end Bembel.Spec.Motion
