import Mathlib.Analysis.InnerProductSpace.Calculus
import Mathlib.Analysis.Calculus.ContDiff.WithLp
import Mathlib.Analysis.SpecialFunctions.ExpDeriv
import Verif.Model.Operators
/-! # Smoothness of the far field kernels -/

namespace Bembel.Interpol
open scoped ContDiff

variable {X : Type} [NormedAddCommGroup X] [NormedSpace ℝ X]

theorem cross_smooth {f g : X → V3} {x : X} (hf : ContDiffAt ℝ ∞ f x) (hg : ContDiffAt ℝ ∞ g x) : ContDiffAt ℝ ∞ (fun y => cross3 (f y) (g y)) x := by
  have c : ∀ (f : X → V3), ContDiffAt ℝ ∞ f x → ∀ i, ContDiffAt ℝ ∞ (fun y => f y i) x := fun f hf i => (contDiffAt_euclidean.1 hf) i
  rw [contDiffAt_euclidean]
  intro i
  unfold cross3
  fin_cases i
  · exact ((c f hf 1).mul (c g hg 2)).sub ((c f hf 2).mul (c g hg 1))
  · exact ((c f hf 2).mul (c g hg 0)).sub ((c f hf 0).mul (c g hg 2))
  · exact ((c f hf 0).mul (c g hg 1)).sub ((c f hf 1).mul (c g hg 0))

theorem ofReal_smooth {f : X → ℝ} {x : X} (hf : ContDiffAt ℝ ∞ f x) : ContDiffAt ℝ ∞ (fun y => ((f y : ℝ) : ℂ)) x :=
  Complex.ofRealCLM.contDiff.contDiffAt.comp x hf

theorem laplace_smooth {f g : X → V3} {x : X} (hf : ContDiffAt ℝ ∞ f x) (hg : ContDiffAt ℝ ∞ g x) (h : f x ≠ g x) :
    ContDiffAt ℝ ∞ (fun y => Kernel.laplace (f y) (g y)) x := by
  unfold Kernel.laplace
  exact contDiffAt_const.div ((hf.sub hg).norm ℝ (sub_ne_zero.2 h)) (norm_ne_zero_iff.2 (sub_ne_zero.2 h))

theorem laplaceDL_smooth {f g n : X → V3} {x : X} (hf : ContDiffAt ℝ ∞ f x) (hg : ContDiffAt ℝ ∞ g x) (hn : ContDiffAt ℝ ∞ n x) (h : f x ≠ g x) :
    ContDiffAt ℝ ∞ (fun y => Kernel.laplaceDL (f y) (g y) (n y)) x := by
  unfold Kernel.laplaceDL
  have r := (hf.sub hg).norm ℝ (sub_ne_zero.2 h)
  have r0 := norm_ne_zero_iff.2 (sub_ne_zero.2 h)
  exact ((((hf.sub hg).inner ℝ hn).div_const 4).div_const _).div ((r.mul r).mul r) (mul_ne_zero (mul_ne_zero r0 r0) r0)

theorem laplaceADL_smooth {f g n : X → V3} {x : X} (hf : ContDiffAt ℝ ∞ f x) (hg : ContDiffAt ℝ ∞ g x) (hn : ContDiffAt ℝ ∞ n x) (h : f x ≠ g x) :
    ContDiffAt ℝ ∞ (fun y => Kernel.laplaceADL (f y) (n y) (g y)) x := by
  unfold Kernel.laplaceADL
  have r := (hf.sub hg).norm ℝ (sub_ne_zero.2 h)
  have r0 := norm_ne_zero_iff.2 (sub_ne_zero.2 h)
  exact ((((hf.sub hg).inner ℝ hn).neg.div_const 4).div_const _).div ((r.mul r).mul r) (mul_ne_zero (mul_ne_zero r0 r0) r0)

theorem cexp_smooth {f : X → ℂ} {x : X} (hf : ContDiffAt ℝ ∞ f x) : ContDiffAt ℝ ∞ (fun y => Complex.exp (f y)) x :=
  hf.cexp

theorem cdiv_smooth {f g : X → ℂ} {x : X} (hf : ContDiffAt ℝ ∞ f x) (hg : ContDiffAt ℝ ∞ g x) (h : g x ≠ 0) :
    ContDiffAt ℝ ∞ (fun y => f y / g y) x := by
  simp only [div_eq_mul_inv]
  exact hf.mul (hg.inv h)

theorem helmholtz_smooth (k : ℂ) {f g : X → V3} {x : X} (hf : ContDiffAt ℝ ∞ f x) (hg : ContDiffAt ℝ ∞ g x) (h : f x ≠ g x) :
    ContDiffAt ℝ ∞ (fun y => Kernel.helmholtz k (f y) (g y)) x := by
  unfold Kernel.helmholtz
  have r := ofReal_smooth ((hf.sub hg).norm ℝ (sub_ne_zero.2 h))
  have r0 : ((‖f x - g x‖ : ℝ) : ℂ) ≠ 0 := by exact_mod_cast norm_ne_zero_iff.2 (sub_ne_zero.2 h)
  exact cdiv_smooth (((cexp_smooth (contDiffAt_const.mul r)).div_const 4).div_const _) r r0

theorem helmholtzDL_smooth (k : ℂ) {f g n : X → V3} {x : X} (hf : ContDiffAt ℝ ∞ f x) (hg : ContDiffAt ℝ ∞ g x) (hn : ContDiffAt ℝ ∞ n x)
    (h : f x ≠ g x) : ContDiffAt ℝ ∞ (fun y => Kernel.helmholtzDL k (f y) (g y) (n y)) x := by
  unfold Kernel.helmholtzDL
  have q := (hf.sub hg).norm ℝ (sub_ne_zero.2 h)
  have r := ofReal_smooth q
  have r0 := norm_ne_zero_iff.2 (sub_ne_zero.2 h)
  refine cdiv_smooth (((((ofReal_smooth ((hf.sub hg).inner ℝ hn)).mul (cexp_smooth (contDiffAt_const.mul r))).mul
    (contDiffAt_const.add (contDiffAt_const.mul r))).div_const 4).div_const _) (ofReal_smooth ((q.mul q).mul q)) ?_
  exact_mod_cast mul_ne_zero (mul_ne_zero r0 r0) r0

theorem helmholtzADL_smooth (k : ℂ) {f g n : X → V3} {x : X} (hf : ContDiffAt ℝ ∞ f x) (hg : ContDiffAt ℝ ∞ g x) (hn : ContDiffAt ℝ ∞ n x)
    (h : f x ≠ g x) : ContDiffAt ℝ ∞ (fun y => Kernel.helmholtzADL k (f y) (n y) (g y)) x := by
  unfold Kernel.helmholtzADL
  have q := (hf.sub hg).norm ℝ (sub_ne_zero.2 h)
  have r := ofReal_smooth q
  have r0 := norm_ne_zero_iff.2 (sub_ne_zero.2 h)
  refine cdiv_smooth (((((ofReal_smooth ((hf.sub hg).inner ℝ hn).neg).mul (cexp_smooth (contDiffAt_const.mul r))).mul
    (contDiffAt_const.add (contDiffAt_const.mul r))).div_const 4).div_const _) (ofReal_smooth ((q.mul q).mul q)) ?_
  exact_mod_cast mul_ne_zero (mul_ne_zero r0 r0) r0

variable {R : Type} [RCLike R]

/-- The far field kernels are smooth functions of points and tangents, away from the diagonal. -/
def SmoothKernel (op : Operator R) : Prop :=
  ∀ (a b : Nat) (q : (V3 × V3 × V3) × (V3 × V3 × V3)), q.1.1 ≠ q.2.1 → cross3 q.1.2.1 q.1.2.2 ≠ 0 → cross3 q.2.2.1 q.2.2.2 ≠ 0 →
    ContDiffAt ℝ ∞ (fun q : (V3 × V3 × V3) × (V3 × V3 × V3) =>
      op.fmm ⟨(0, 0), 1, q.1.1, q.1.2.1, q.1.2.2⟩ ⟨(0, 0), 1, q.2.1, q.2.2.1, q.2.2.2⟩ a b) q

section
variable (q : (V3 × V3 × V3) × (V3 × V3 × V3))
theorem p1s : ContDiffAt ℝ ∞ (fun q : (V3 × V3 × V3) × (V3 × V3 × V3) => q.1.1) q := by fun_prop
theorem u1s : ContDiffAt ℝ ∞ (fun q : (V3 × V3 × V3) × (V3 × V3 × V3) => q.1.2.1) q := by fun_prop
theorem v1s : ContDiffAt ℝ ∞ (fun q : (V3 × V3 × V3) × (V3 × V3 × V3) => q.1.2.2) q := by fun_prop
theorem p2s : ContDiffAt ℝ ∞ (fun q : (V3 × V3 × V3) × (V3 × V3 × V3) => q.2.1) q := by fun_prop
theorem u2s : ContDiffAt ℝ ∞ (fun q : (V3 × V3 × V3) × (V3 × V3 × V3) => q.2.2.1) q := by fun_prop
theorem v2s : ContDiffAt ℝ ∞ (fun q : (V3 × V3 × V3) × (V3 × V3 × V3) => q.2.2.2) q := by fun_prop
theorem n1s : ContDiffAt ℝ ∞ (fun q : (V3 × V3 × V3) × (V3 × V3 × V3) => cross3 q.1.2.1 q.1.2.2) q := cross_smooth (u1s q) (v1s q)
theorem n2s : ContDiffAt ℝ ∞ (fun q : (V3 × V3 × V3) × (V3 × V3 × V3) => cross3 q.2.2.1 q.2.2.2) q := cross_smooth (u2s q) (v2s q)
end

theorem sk_laplaceSL : SmoothKernel Operator.laplaceSL := fun _ _ q h h1 h2 =>
  ((laplace_smooth (p1s q) (p2s q) h).mul ((n1s q).norm ℝ h1)).mul ((n2s q).norm ℝ h2)

theorem sk_laplaceDL : SmoothKernel Operator.laplaceDL := fun _ _ q h h1 _ => by
  simp only [Operator.laplaceDL]
  exact (laplaceDL_smooth (p1s q) (p2s q) (n2s q) h).mul ((n1s q).norm ℝ h1)

theorem sk_laplaceADL : SmoothKernel Operator.laplaceADL := fun _ _ q h _ h2 => by
  simp only [Operator.laplaceADL]
  first
  | exact (laplaceADL_smooth (p1s q) (p2s q) (n1s q) h).mul ((n2s q).norm ℝ h2)
  | exact ((n2s q).norm ℝ h2).mul (laplaceADL_smooth (p1s q) (p2s q) (n1s q) h)

theorem sk_helmholtzSL (k : ℂ) : SmoothKernel (Operator.helmholtzSL k) := fun _ _ q h h1 h2 =>
  ((helmholtz_smooth k (p1s q) (p2s q) h).mul (ofReal_smooth ((n1s q).norm ℝ h1))).mul (ofReal_smooth ((n2s q).norm ℝ h2))

theorem sk_helmholtzDL (k : ℂ) : SmoothKernel (Operator.helmholtzDL k) := fun _ _ q h h1 _ => by
  simp only [Operator.helmholtzDL]
  first
  | exact (helmholtzDL_smooth k (p1s q) (p2s q) (n2s q) h).mul (ofReal_smooth ((n1s q).norm ℝ h1))
  | exact (ofReal_smooth ((n1s q).norm ℝ h1)).mul (helmholtzDL_smooth k (p1s q) (p2s q) (n2s q) h)

theorem sk_helmholtzADL (k : ℂ) : SmoothKernel (Operator.helmholtzADL k) := fun _ _ q h _ h2 => by
  simp only [Operator.helmholtzADL]
  first
  | exact (helmholtzADL_smooth k (p1s q) (p2s q) (n1s q) h).mul (ofReal_smooth ((n2s q).norm ℝ h2))
  | exact (ofReal_smooth ((n2s q).norm ℝ h2)).mul (helmholtzADL_smooth k (p1s q) (p2s q) (n1s q) h)

theorem sk_laplaceHyp : SmoothKernel Operator.laplaceHyp := fun a b q h h1 h2 => by
  have k := laplace_smooth (p1s q) (p2s q) h
  match a, b with
  | 0, 0 => exact k.mul ((v1s q).inner ℝ (v2s q))
  | 0, 1 => exact k.neg.mul ((v1s q).inner ℝ (u2s q))
  | 1, 0 => exact k.neg.mul ((u1s q).inner ℝ (v2s q))
  | 1, 1 => exact k.mul ((u1s q).inner ℝ (u2s q))
  | a + 2, b => simp only [Operator.laplaceHyp]; exact contDiffAt_const
  | 0, b + 2 => simp only [Operator.laplaceHyp]; exact contDiffAt_const
  | 1, b + 2 => simp only [Operator.laplaceHyp]; exact contDiffAt_const

theorem sk_helmholtzHyp (k : ℂ) : SmoothKernel (Operator.helmholtzHyp k) := fun a b q h h1 h2 => by
  have K := helmholtz_smooth k (p1s q) (p2s q) h
  match a, b with
  | 0, 0 => exact (K.neg.mul contDiffAt_const).mul (ofReal_smooth ((n1s q).inner ℝ (n2s q)))
  | 1, 1 => exact K.mul (ofReal_smooth ((v1s q).inner ℝ (v2s q)))
  | 1, 2 => exact K.neg.mul (ofReal_smooth ((v1s q).inner ℝ (u2s q)))
  | 2, 1 => exact K.neg.mul (ofReal_smooth ((u1s q).inner ℝ (v2s q)))
  | 2, 2 => exact K.mul (ofReal_smooth ((u1s q).inner ℝ (u2s q)))
  | 0, b + 1 => simp only [Operator.helmholtzHyp]; exact contDiffAt_const
  | 1, 0 => simp only [Operator.helmholtzHyp]; exact contDiffAt_const
  | 2, 0 => simp only [Operator.helmholtzHyp]; exact contDiffAt_const
  | 1, b + 3 => simp only [Operator.helmholtzHyp]; exact contDiffAt_const
  | 2, b + 3 => simp only [Operator.helmholtzHyp]; exact contDiffAt_const
  | a + 3, b => simp only [Operator.helmholtzHyp]; exact contDiffAt_const

theorem sk_maxwellSL (k : ℂ) : SmoothKernel (Operator.maxwellSL k) := fun a b q h h1 h2 => by
  have K := helmholtz_smooth k (p1s q) (p2s q) h
  match a, b with
  | 0, 0 => exact K.mul (ofReal_smooth ((u1s q).inner ℝ (u2s q)))
  | 0, 2 => exact K.mul (ofReal_smooth ((u1s q).inner ℝ (v2s q)))
  | 2, 0 => exact K.mul (ofReal_smooth ((v1s q).inner ℝ (u2s q)))
  | 2, 2 => exact K.mul (ofReal_smooth ((v1s q).inner ℝ (v2s q)))
  | 1, 1 => exact K.neg.div_const _
  | 1, 3 => exact K.neg.div_const _
  | 3, 1 => exact K.neg.div_const _
  | 3, 3 => exact K.neg.div_const _
  | 0, 1 => simp only [Operator.maxwellSL]; exact contDiffAt_const
  | 0, b + 3 => simp only [Operator.maxwellSL]; exact contDiffAt_const
  | 1, 0 => simp only [Operator.maxwellSL]; exact contDiffAt_const
  | 1, 2 => simp only [Operator.maxwellSL]; exact contDiffAt_const
  | 1, b + 4 => simp only [Operator.maxwellSL]; exact contDiffAt_const
  | 2, 1 => simp only [Operator.maxwellSL]; exact contDiffAt_const
  | 2, b + 3 => simp only [Operator.maxwellSL]; exact contDiffAt_const
  | 3, 0 => simp only [Operator.maxwellSL]; exact contDiffAt_const
  | 3, 2 => simp only [Operator.maxwellSL]; exact contDiffAt_const
  | 3, b + 4 => simp only [Operator.maxwellSL]; exact contDiffAt_const
  | a + 4, b => simp only [Operator.maxwellSL]; exact contDiffAt_const

end Bembel.Interpol
