import Verif.Model.Homogenised
import Verif.Spec.Homogenised
import Verif.Lemmas.SolidHarmonic
import Verif.Props.PotentialPDE
/-!
# Property theorems C65: the kernel of the homogenised Laplace problem
-/

namespace Bembel.Props
open Spec Sph Homog Finset

theorem sum_centres {M : Type} [AddCommMonoid M] (g : Int → Int → Int → M) : ∑ m ∈ centres, g m.1 m.2.1 m.2.2 =
    ∑ i ∈ ({-1, 0, 1} : Finset Int), ∑ j ∈ ({-1, 0, 1} : Finset Int), ∑ k ∈ ({-1, 0, 1} : Finset Int), g i j k := by
  have e : (Icc (-1) 1 : Finset Int) = {-1, 0, 1} := by decide
  unfold centres
  rw [sum_product, e]
  exact sum_congr rfl fun i _ => by rw [sum_product]

theorem cell_foldl {M : Type} [AddCommGroup M] (g : Int → Int → Int → M) :
    cell.foldl (fun r i => cell.foldl (fun r j => cell.foldl (fun r k => r + g i j k) r) r) 0 = ∑ m ∈ centres, g m.1 m.2.1 m.2.2 := by
  rw [sum_centres]
  have h : ∀ (r : M) (f : Int → M), cell.foldl (fun r k => r + f k) r = r + ∑ k ∈ ({-1, 0, 1} : Finset Int), f k := by
    intro r f
    rw [sum_insert (by decide), sum_insert (by decide), sum_singleton]
    simp only [cell, List.foldl_cons, List.foldl_nil]
    abel
  simp only [h, zero_add]

/-- C65: `k_mod` is the documented modified kernel. -/
theorem C65_modified (x : V3) : kMod x = modifiedKernel x := by
  unfold kMod modifiedKernel
  simp only []
  rw [cell_foldl (fun i j k => 1 / ‖x - vec i j k‖), sum_div, real_inner_self_eq_norm_sq]
  congr 1
  refine sum_congr rfl fun m _ => ?_
  rw [show vec m.1 m.2.1 m.2.2 = latticePoint m from rfl, div_div, mul_comm]

theorem kMod_funext : kMod = modifiedKernel := funext C65_modified

theorem modified_laplace (x : V3) : modifiedKernel x = (∑ m ∈ centres, Kernel.laplace x (latticePoint m)) + (1 / 6) * sq3 x := by
  unfold modifiedKernel Kernel.laplace
  rw [sq3_norm]
  congr 1
  · exact sum_congr rfl fun m _ => by rw [div_div, div_div, mul_assoc]
  · ring

theorem modified_pde (x : V3) (h : OffCentres x) : ContDiffAt ℝ 2 modifiedKernel x ∧ Laplacian.laplacian modifiedKernel x = 1 := by
  have h1 := sum_pde centres (fun m z => Kernel.laplace z (latticePoint m)) 0 x fun m hm => pde_laplace x _ (h m hm)
  have s2 : ContDiffAt ℝ 2 (fun z => (1 / 6) * sq3 z) x := contDiffAt_const.mul sq3_smooth.contDiffAt
  have e : modifiedKernel = (fun z => ∑ m ∈ centres, Kernel.laplace z (latticePoint m)) + fun z => (1 / 6) * sq3 z := funext modified_laplace
  rw [e]
  refine ⟨h1.1.add s2, ?_⟩
  rw [h1.1.laplacian_add s2, h1.2, lap_const_mul _ _ _ sq3_smooth.contDiffAt, sq3_lap]
  norm_num

/-- C65: the modified kernel has Laplacian one away from the 27 centres. -/
theorem C65_modified_pde (x : V3) (h : OffCentres x) : Laplacian.laplacian kMod x = 1 := by
  rw [kMod_funext]; exact (modified_pde x h).2

theorem laplace_fderiv (x y : V3) (h : x ≠ y) : HasFDerivAt (fun x => Kernel.laplace x y)
    (-(1 / (4 * Real.pi * (‖x - y‖ * ‖x - y‖ * ‖x - y‖))) • innerSL ℝ (x - y)) x := by
  have hr : 0 < ‖x - y‖ := norm_pos_iff.2 (sub_ne_zero.2 h)
  have hg : HasDerivAt (fun r : ℝ => 1 / 4 / Real.pi / r) (-(1 / 4 / Real.pi / ‖x - y‖ ^ 2)) ‖x - y‖ := by
    have := (hasDerivAt_const ‖x - y‖ (1 / 4 / Real.pi)).div (hasDerivAt_id ‖x - y‖) hr.ne'
    refine this.congr_deriv ?_
    simp; ring
  have := Radial.hasFDerivAt (fun r : ℝ => 1 / 4 / Real.pi / r) _ y x h hg
  refine this.congr_fderiv ?_
  apply ContinuousLinearMap.ext
  intro v
  simp only [ContinuousLinearMap.smulRight_apply, ContinuousLinearMap.smul_apply, smul_eq_mul]
  have hpi := Real.pi_ne_zero
  field_simp

/-- C65: `Dk_mod` is the gradient of `k_mod` away from the 27 centres. -/
theorem C65_modified_gradient (x : V3) (h : OffCentres x) : HasFDerivAt kMod (innerSL ℝ (dkMod x)) x := by
  rw [kMod_funext, show modifiedKernel = fun z => (∑ m ∈ centres, Kernel.laplace z (latticePoint m)) + (1 / 6) * sq3 z from funext modified_laplace]
  have h1 : HasFDerivAt (fun z => ∑ m ∈ centres, Kernel.laplace z (latticePoint m)) _ x :=
    HasFDerivAt.fun_sum fun m hm => laplace_fderiv x (latticePoint m) (h m hm)
  have h2 := ((sq3_smooth.differentiable (by norm_num)) x).hasFDerivAt.const_mul (1 / 6)
  refine (h1.add h2).congr_fderiv ?_
  apply ContinuousLinearMap.ext
  intro v
  have e : dkMod x = (1 / (4 * Real.pi)) • (∑ m ∈ centres, -(1 / (‖x - latticePoint m‖ * ‖x - latticePoint m‖ * ‖x - latticePoint m‖)) • (x - latticePoint m)) +
      (1 / 3 : ℝ) • x := by
    unfold dkMod
    simp only [sub_eq_add_neg (_ : V3) ((_ : ℝ) • _)]
    rw [cell_foldl (fun i j k => -((1 / (‖x - vec i j k‖ * ‖x - vec i j k‖ * ‖x - vec i j k‖)) • (x - vec i j k)))]
    congr 2
    exact sum_congr rfl fun m _ => by rw [neg_smul]; rfl
  rw [e, innerSL_apply_apply, inner_add_left, inner_smul_left, inner_smul_left, sum_inner]
  simp only [ContinuousLinearMap.add_apply, ContinuousLinearMap.smul_apply, ContinuousLinearMap.sum_apply, smul_eq_mul, sq3_fderiv, innerSL_apply_apply,
    inner_smul_left, conj_trivial, mul_sum]
  rw [inner3 x v]
  congr 1
  · refine sum_congr rfl fun m _ => ?_
    have hr : ‖x - latticePoint m‖ ≠ 0 := norm_ne_zero_iff.2 (sub_ne_zero.2 (h m ‹_›))
    have hpi := Real.pi_ne_zero
    field_simp
  · ring

/-- C65: the modified kernel is even. -/
theorem C65_modified_even (x : V3) : kMod (-x) = kMod x := by
  rw [C65_modified, C65_modified]
  unfold modifiedKernel
  rw [norm_neg]
  congr 1
  refine sum_bij (fun m _ => (-m.1, -m.2.1, -m.2.2)) ?_ ?_ ?_ ?_
  · intro m hm
    simp only [centres, mem_product, mem_Icc] at hm ⊢
    omega
  · intro a _ b _ hab
    simp only [Prod.mk.injEq, neg_inj] at hab
    exact Prod.ext hab.1 (Prod.ext hab.2.1 hab.2.2)
  · intro m hm
    refine ⟨(-m.1, -m.2.1, -m.2.2), ?_, by simp⟩
    simp only [centres, mem_product, mem_Icc] at hm ⊢
    omega
  · intro m _
    rw [show latticePoint (-m.1, -m.2.1, -m.2.2) = -latticePoint m by
      unfold latticePoint; ext i; fin_cases i <;> simp, show -x - latticePoint m = -(x - -latticePoint m) by abel, norm_neg]

end Bembel.Props
