import Verif.Spec.Dense
import Verif.Props.Duffy
import Verif.Props.PairClass
/-!
# Exchange of the two elements of a pair
-/

namespace Bembel.Props
open Finset H2 Duffy

variable {E : Type} [AddCommGroup E] [Module ℝ E]

/-- Exchanged arguments, value transformed by `τ`. -/
def flip (τ : E →ₗ[ℝ] E) (F : PointPair → E) (p : PointPair) : E := τ (F (p.2, p.1))

theorem pairQuad_flip (Q : Cubature ℝ) (τ : E →ₗ[ℝ] E) (F : PointPair → E) :
    pairQuad Q (flip τ F) = τ (pairQuad Q F) := by
  unfold pairQuad
  rw [sum_comm, map_sum]
  refine sum_congr rfl fun i _ => ?_
  rw [map_sum]
  refine sum_congr rfl fun j _ => ?_
  rw [map_smul, flip, mul_comm]

theorem transformed2_flip (τ : E →ₗ[ℝ] E) (F : PointPair → E) (p : PointPair) :
    transformed2 (flip τ F) p = τ (transformed2 F p) := by
  simp only [transformed2, flip, map_smul, map_add]
  congr 1
  abel

theorem transformed4_flip (τ : E →ₗ[ℝ] E) (F : PointPair → E) (p : PointPair) :
    transformed4 (flip τ F) p = τ (transformed4 F p) := by
  simp only [transformed4, flip, map_smul, map_add]
  congr 1
  abel

theorem rotated_flip (r s : Nat) (τ : E →ₗ[ℝ] E) (F : PointPair → E) : rotated s r (flip τ F) = flip τ (rotated r s F) := rfl

theorem pairQuad_tensor (q : Quad1 ℝ) (G : PointPair → E) : pairQuad (tensorRule q) G =
    ∑ a ∈ range q.size, ∑ b ∈ range q.size, ∑ c ∈ range q.size, ∑ d ∈ range q.size,
      (q.w a * q.w b * (q.w c * q.w d)) • G ((q.xi a, q.xi b), (q.xi c, q.xi d)) := by
  have h := C46_sum q (fun w x => ∑ j ∈ range (tensorRule q).size, (w * (tensorRule q).w j) • G (x, (tensorRule q).xi j))
  unfold pairQuad
  rw [h]
  refine sum_congr rfl fun a _ => sum_congr rfl fun b _ => ?_
  exact C46_sum q (fun w x => (q.w a * q.w b * w) • G ((q.xi a, q.xi b), x))

/-- Reflection of the first coordinate and exchange of the last two. -/
theorem pairQuad_reflect (q : Quad1 ℝ) (hq : Reflective q) (G : PointPair → E) : pairQuad (tensorRule q) G =
    pairQuad (tensorRule q) (fun p => G ((1 - p.1.1, p.1.2), (p.2.2, p.2.1))) := by
  rw [pairQuad_tensor, pairQuad_tensor]
  obtain ⟨σ, hσ⟩ := hq
  refine sum_nbij' σ σ ?_ ?_ ?_ ?_ ?_
  · intro a ha; exact mem_range.2 (hσ a (mem_range.1 ha)).1
  · intro a ha; exact mem_range.2 (hσ a (mem_range.1 ha)).1
  · intro a ha; exact (hσ a (mem_range.1 ha)).2.1
  · intro a ha; exact (hσ a (mem_range.1 ha)).2.1
  · intro a ha
    obtain ⟨h1, h2, h3, h4⟩ := hσ a (mem_range.1 ha)
    refine sum_congr rfl fun b _ => ?_
    rw [sum_comm]
    refine sum_congr rfl fun c _ => sum_congr rfl fun d _ => ?_
    rw [h3, h4, sub_sub_cancel, mul_comm (q.w d)]

theorem pairQuad_add (Q : Cubature ℝ) (F G : PointPair → E) : pairQuad Q (fun p => F p + G p) = pairQuad Q F + pairQuad Q G := by
  unfold pairQuad
  rw [← sum_add_distrib]
  refine sum_congr rfl fun i _ => ?_
  rw [← sum_add_distrib]
  exact sum_congr rfl fun j _ => smul_add _ _ _

theorem pairQuad_map (Q : Cubature ℝ) (τ : E →ₗ[ℝ] E) (F : PointPair → E) :
    pairQuad Q (fun p => τ (F p)) = τ (pairQuad Q F) := by
  unfold pairQuad
  rw [map_sum]
  refine sum_congr rfl fun i _ => ?_
  rw [map_sum]
  exact sum_congr rfl fun j _ => (map_smul _ _ _).symm

theorem transformed3_flip (q : Quad1 ℝ) (hq : Reflective q) (τ : E →ₗ[ℝ] E) (F : PointPair → E) :
    pairQuad (tensorRule q) (transformed3 (flip τ F)) = τ (pairQuad (tensorRule q) (transformed3 F)) := by
  let A : PointPair → E := fun p => (p.1.2 ^ 2 * (1 - p.1.2)) •
    (F ((p.1.1 * (1 - p.1.2), p.1.2 * p.2.1), ((1 - p.1.1) * (1 - p.1.2), p.1.2 * p.2.2)) +
     F ((1 - p.1.1 * (1 - p.1.2), p.1.2 * p.2.1), (1 - (1 - p.1.1) * (1 - p.1.2), p.1.2 * p.2.2)))
  let C : PointPair → E := fun p => (p.1.2 ^ 2 * (1 - p.1.2 * p.2.1)) •
    (F ((p.1.1 * (1 - p.1.2 * p.2.1), p.1.2), ((1 - p.1.1) * (1 - p.1.2 * p.2.1), p.1.2 * p.2.2)) +
     F ((1 - p.1.1 * (1 - p.1.2 * p.2.1), p.1.2), (1 - (1 - p.1.1) * (1 - p.1.2 * p.2.1), p.1.2 * p.2.2)) +
     F (((1 - p.1.1) * (1 - p.1.2 * p.2.1), p.1.2 * p.2.2), (p.1.1 * (1 - p.1.2 * p.2.1), p.1.2)) +
     F ((1 - (1 - p.1.1) * (1 - p.1.2 * p.2.1), p.1.2 * p.2.2), (1 - p.1.1 * (1 - p.1.2 * p.2.1), p.1.2)))
  have e1 : transformed3 F = fun p => A p + C p := rfl
  have e2 : transformed3 (flip τ F) = fun p => τ (A ((1 - p.1.1, p.1.2), (p.2.2, p.2.1))) + τ (C p) := by
    funext p
    simp only [transformed3, flip, A, C, map_smul, map_add, sub_sub_cancel]
    congr 2
    abel
  rw [e1, e2, pairQuad_add, pairQuad_add, map_add, pairQuad_map, pairQuad_map, ← pairQuad_reflect q hq]

end Bembel.Props
