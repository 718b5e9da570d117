import Verif.Props.Potential
/-!
# Property theorems C60: evaluated potentials solve the differential equation

Reference points: Mathlib's Laplacian and derivative.
-/

set_option linter.unusedSectionVars false

namespace Bembel.Props
open Finset Bembel.Mesh Bembel.Spec Bembel.FunctionEval Bembel.SuperSpace Bembel.Potential Kernel Complex

section
variable {E : Type} [NontriviallyNormedField E] [NormedAlgebra ℝ E]

/-- Sums of functions with eigenvalue `l` of the Laplacian. -/
theorem sum_pde {ι : Type} (s : Finset ι) (g : ι → V3 → E) (l : E) (x : V3)
    (h : ∀ i ∈ s, ContDiffAt ℝ 2 (g i) x ∧ Laplacian.laplacian (g i) x = l * g i x) :
    ContDiffAt ℝ 2 (fun x => ∑ i ∈ s, g i x) x ∧ Laplacian.laplacian (fun x => ∑ i ∈ s, g i x) x = l * ∑ i ∈ s, g i x := by
  classical
  induction s using Finset.induction_on with
  | empty =>
    refine ⟨by simpa using contDiffAt_const, ?_⟩
    simp [InnerProductSpace.laplacian_eq_iteratedFDeriv_orthonormalBasis _ (stdOrthonormalBasis ℝ V3), iteratedFDeriv_const_of_ne]
  | insert i s hi ih =>
    obtain ⟨a1, a2⟩ := h i (by simp)
    obtain ⟨b1, b2⟩ := ih fun j hj => h j (by simp [hj])
    have e : (fun x => ∑ j ∈ insert i s, g j x) = g i + fun x => ∑ j ∈ s, g j x := by
      funext x; rw [sum_insert hi]; rfl
    rw [e]
    refine ⟨a1.add b1, ?_⟩
    rw [ContDiffAt.laplacian_add a1 b1, a2, b2, sum_insert hi, mul_add]

theorem scaled_pde (g g' : V3 → E) (c l : E) (x : V3) (h : ContDiffAt ℝ 2 g x ∧ Laplacian.laplacian g x = l * g x)
    (hg : ∀ z, g' z = c * g z) : ContDiffAt ℝ 2 g' x ∧ Laplacian.laplacian g' x = l * g' x := by
  have e : g' = c • g := funext hg
  subst e
  refine ⟨contDiffAt_const.mul h.1, ?_⟩
  have := InnerProductSpace.laplacian_smul c h.1
  rw [this, h.2, Pi.smul_apply, smul_eq_mul, smul_eq_mul]
  ring

/-- The quadrature on the surface of functions with eigenvalue `l`. -/
theorem quad_pde (t : Mesh.Tree ℝ) (geo : Nat → ℝ × ℝ → V3 × V3 × V3) (Q : Cubature ℝ) (els : List Addr) (g : V3 → Addr → SurfPt → E)
    (l : E) (x : V3) (h : ∀ a ∈ els, ∀ j < Q.size, ContDiffAt ℝ 2 (fun x => g x a (elementPoint t geo a (Q.xi j))) x ∧
      Laplacian.laplacian (fun x => g x a (elementPoint t geo a (Q.xi j))) x = l * g x a (elementPoint t geo a (Q.xi j))) :
    ContDiffAt ℝ 2 (fun x => surfaceQuad t geo Q els (g x)) x ∧
      Laplacian.laplacian (fun x => surfaceQuad t geo Q els (g x)) x = l * surfaceQuad t geo Q els (g x) := by
  have e : ∀ x, surfaceQuad t geo Q els (g x) = ∑ i : Fin els.length, ∑ j ∈ range Q.size,
      algebraMap ℝ E (getH t (els.get i) ^ 2 * Q.w j) * g x (els.get i) (elementPoint t geo (els.get i) (Q.xi j)) := by
    intro x
    unfold surfaceQuad
    exact (Fin.sum_univ_fun_getElem els (fun a => ∑ j ∈ range Q.size, algebraMap ℝ E (getH t a ^ 2 * Q.w j) * g x a (elementPoint t geo a (Q.xi j)))).symm
  simp only [e]
  refine sum_pde univ _ l x fun i _ => sum_pde (range Q.size) _ l x fun j hj =>
    scaled_pde _ _ _ l x (h _ (List.get_mem _ _) j (mem_range.1 hj)) fun _ => rfl

/-- The derivative of the quadrature on the surface. -/
theorem quad_fderiv (t : Mesh.Tree ℝ) (geo : Nat → ℝ × ℝ → V3 × V3 × V3) (Q : Cubature ℝ) (els : List Addr) (g D : V3 → Addr → SurfPt → E)
    (x : V3) (h : ∀ a ∈ els, ∀ j < Q.size, ∃ L : V3 →L[ℝ] E, HasFDerivAt (fun x => g x a (elementPoint t geo a (Q.xi j))) L x ∧
      ∀ v, L v = D v a (elementPoint t geo a (Q.xi j))) :
    ∃ L : V3 →L[ℝ] E, HasFDerivAt (fun x => surfaceQuad t geo Q els (g x)) L x ∧ ∀ v, L v = surfaceQuad t geo Q els (D v) := by
  have e : ∀ g : V3 → Addr → SurfPt → E, ∀ x, surfaceQuad t geo Q els (g x) = ∑ i : Fin els.length, ∑ j ∈ range Q.size,
      algebraMap ℝ E (getH t (els.get i) ^ 2 * Q.w j) * g x (els.get i) (elementPoint t geo (els.get i) (Q.xi j)) := by
    intro g x
    unfold surfaceQuad
    exact (Fin.sum_univ_fun_getElem els (fun a => ∑ j ∈ range Q.size, algebraMap ℝ E (getH t a ^ 2 * Q.w j) * g x a (elementPoint t geo a (Q.xi j)))).symm
  have h' : ∀ (i : Fin els.length) (j : Nat), ∃ L : V3 →L[ℝ] E, j < Q.size →
      HasFDerivAt (fun x => g x (els.get i) (elementPoint t geo (els.get i) (Q.xi j))) L x ∧
      ∀ v, L v = D v (els.get i) (elementPoint t geo (els.get i) (Q.xi j)) := by
    intro i j
    by_cases hj : j < Q.size
    · obtain ⟨L, hL⟩ := h _ (List.get_mem els i) j hj; exact ⟨L, fun _ => hL⟩
    · exact ⟨0, fun hj' => absurd hj' hj⟩
  choose L hL using h'
  refine ⟨∑ i : Fin els.length, ∑ j ∈ range Q.size, algebraMap ℝ E (getH t (els.get i) ^ 2 * Q.w j) • L i j, ?_, ?_⟩
  · simp only [e g]
    refine HasFDerivAt.fun_sum fun i _ => HasFDerivAt.fun_sum fun j hj => ?_
    exact (hL i j (mem_range.1 hj)).1.const_mul _
  · intro v
    rw [e D v]
    simp only [ContinuousLinearMap.sum_apply, ContinuousLinearMap.smul_apply, smul_eq_mul]
    refine sum_congr rfl fun i _ => sum_congr rfl fun j hj => ?_
    rw [(hL i j (mem_range.1 hj)).2]

theorem surfaceQuad_three (t : Mesh.Tree ℝ) (geo : Nat → ℝ × ℝ → V3 × V3 × V3) (Q : Cubature ℝ) (els : List Addr)
    (D : Addr → SurfPt → E) (G : Fin 3 → Addr → SurfPt → E) (v : Fin 3 → E) (h : ∀ a p, D a p = ∑ k, G k a p * v k) :
    surfaceQuad t geo Q els D = ∑ k, surfaceQuad t geo Q els (G k) * v k := by
  rw [Fin.sum_univ_three, surfaceQuad_lin t geo Q els (v 0) 1 (G 0) (fun a p => v 1 * G 1 a p + v 2 * G 2 a p) D (by
    intro a p; rw [h, Fin.sum_univ_three]; ring), surfaceQuad_lin t geo Q els (v 1) (v 2) (G 1) (G 2) _ (fun _ _ => rfl)]
  ring

end

theorem pde_laplace (x y : V3) (h : x ≠ y) :
    ContDiffAt ℝ 2 (fun x => laplace x y) x ∧ Laplacian.laplacian (fun x => laplace x y) x = 0 * laplace x y := by
  refine ⟨?_, by rw [(C59_pde 0 x y h).1, zero_mul]⟩
  exact Radial.contDiffAt (fun r : ℝ => 1 / 4 / Real.pi / r) y x h fun r hr => contDiffAt_const.div contDiffAt_id hr.ne'

theorem pde_laplaceDL (x y n : V3) (h : x ≠ y) :
    ContDiffAt ℝ 2 (fun x => laplaceDL x y n) x ∧ Laplacian.laplacian (fun x => laplaceDL x y n) x = 0 * laplaceDL x y n := by
  have hr : 0 < ‖x - y‖ := norm_pos_iff.2 (sub_ne_zero.2 h)
  have hpi := Real.pi_ne_zero
  have e : (fun x => laplaceDL x y n) = fun z => inner ℝ (z - y) n • (fun r : ℝ => 1 / 4 / Real.pi / (r * r * r)) ‖z - y‖ := by
    funext z
    simp only [Kernel.laplaceDL, smul_eq_mul]
    ring
  have d : ∀ r : ℝ, HasDerivAt (fun r : ℝ => r * r * r) (3 * (r * r)) r := fun r =>
    (((hasDerivAt_id r).mul (hasDerivAt_id r)).mul (hasDerivAt_id r)).congr_deriv (by simp; ring)
  obtain ⟨k1, k2⟩ := Radial.laplacian_inner (fun r : ℝ => 1 / 4 / Real.pi / (r * r * r)) (fun r => -3 / 4 / Real.pi / (r * r * r * r))
    (fun r => 15 / 4 / Real.pi / (r * r * r * r * r * r)) n y x h (fun r hr => by
      refine ((hasDerivAt_const r (1 / 4 / Real.pi)).div (d r) (by positivity)).congr_deriv ?_
      field_simp
      ring) (fun r hr => by
      have d5 : HasDerivAt (fun r : ℝ => r * r * r * (r * r)) (5 * (r * r * r * r)) r :=
        ((d r).mul ((hasDerivAt_id r).mul (hasDerivAt_id r))).congr_deriv (by simp; ring)
      have e : (fun r : ℝ => (1 / r) • (-3 / 4 / Real.pi / (r * r * r * r))) = fun r => (-3 / 4 / Real.pi) / (r * r * r * (r * r)) := by
        funext r; rw [smul_eq_mul]; ring
      rw [e]
      refine ((hasDerivAt_const r (-3 / 4 / Real.pi)).div d5 (by positivity)).congr_deriv ?_
      field_simp
      ring) (fun r hr => contDiffAt_const.div ((contDiffAt_id.mul contDiffAt_id).mul contDiffAt_id) (by positivity))
  rw [e]
  refine ⟨k1, ?_⟩
  rw [k2, zero_mul]
  simp only [smul_eq_mul, finrank_euclideanSpace, Fintype.card_fin]
  field_simp
  norm_num

theorem contDiffAt_helmholtz_profile (k : ℂ) (r : ℝ) (hr : 0 < r) : ContDiffAt ℝ 2 (fun r : ℝ => exp (-I * k * r) / 4 / Real.pi / r) r := by
  have this : ContDiffAt ℝ 2 (fun r : ℝ => (r : ℂ)) r := ofRealCLM.contDiff.contDiffAt
  have h2 : ContDiffAt ℝ 2 (fun r : ℝ => exp (-I * k * r)) r := (contDiffAt_const.mul this).cexp
  have e : (fun r : ℝ => exp (-I * k * r) / 4 / Real.pi / r) =
      fun r : ℝ => exp (-I * k * r) * (1 / 4 / Real.pi) * ((r⁻¹ : ℝ) : ℂ) := by
    funext r; push_cast; ring
  rw [e]
  exact (h2.mul contDiffAt_const).mul (ofRealCLM.contDiff.contDiffAt.comp r (contDiffAt_inv ℝ hr.ne'))

theorem pde_helmholtz (k : ℂ) (x y : V3) (h : x ≠ y) :
    ContDiffAt ℝ 2 (fun x => helmholtz k x y) x ∧ Laplacian.laplacian (fun x => helmholtz k x y) x = -k ^ 2 * helmholtz k x y :=
  ⟨Radial.contDiffAt (fun r : ℝ => exp (-I * k * r) / 4 / Real.pi / r) y x h (contDiffAt_helmholtz_profile k), (C59_pde k x y h).2.2.1⟩

theorem pde_helmholtzDL (k : ℂ) (x y n : V3) (h : x ≠ y) :
    ContDiffAt ℝ 2 (fun x => helmholtzDL k x y n) x ∧
      Laplacian.laplacian (fun x => helmholtzDL k x y n) x = -k ^ 2 * helmholtzDL k x y n := by
  have hr : 0 < ‖x - y‖ := norm_pos_iff.2 (sub_ne_zero.2 h)
  have hc : (‖x - y‖ : ℂ) ≠ 0 := ofReal_ne_zero.2 hr.ne'
  have hpi : (Real.pi : ℂ) ≠ 0 := ofReal_ne_zero.2 Real.pi_ne_zero
  have e : (fun x => helmholtzDL k x y n) = fun z => inner ℝ (z - y) n •
      (fun r : ℝ => exp (-I * k * r) * (1 + I * k * r) / 4 / Real.pi / ((r : ℂ) * r * r)) ‖z - y‖ := by
    funext z
    simp only [Kernel.helmholtzDL, real_smul]
    push_cast
    ring
  have d1 : ∀ r : ℝ, HasDerivAt (fun r : ℝ => (r : ℂ)) 1 r := fun r => ofRealCLM.hasDerivAt
  have d2 : ∀ r : ℝ, HasDerivAt (fun r : ℝ => exp (-I * k * r)) (exp (-I * k * r) * (-I * k)) r := fun r => by
    have h2 : HasDerivAt (fun r : ℝ => -I * k * (r : ℂ)) (-I * k) r := by simpa using (d1 r).const_mul (-I * k)
    exact h2.cexp
  have d3 : ∀ r : ℝ, HasDerivAt (fun r : ℝ => (r : ℂ) * r * r) (3 * (r * r)) r := fun r =>
    (((d1 r).mul (d1 r)).mul (d1 r)).congr_deriv (by simp only [Pi.mul_apply]; ring)
  have d4 : ∀ r : ℝ, HasDerivAt (fun r : ℝ => 1 + I * k * (r : ℂ)) (I * k) r := fun r => by
    have := ((d1 r).const_mul (I * k)).const_add 1
    simpa using this
  obtain ⟨k1, k2⟩ := Radial.laplacian_inner (fun r : ℝ => exp (-I * k * r) * (1 + I * k * r) / 4 / Real.pi / ((r : ℂ) * r * r))
    (fun r => exp (-I * k * r) * (-3 - 3 * (I * k * r) - (I * k * r) ^ 2) / 4 / Real.pi / ((r : ℂ) * r * r * r))
    (fun r => exp (-I * k * r) * (15 + 15 * (I * k * r) + 6 * (I * k * r) ^ 2 + (I * k * r) ^ 3) / 4 / Real.pi /
      ((r : ℂ) * r * r * (r * r * r))) n y x h (fun r hr => by
      have h0 : (r : ℂ) ≠ 0 := ofReal_ne_zero.2 hr.ne'
      refine (((((d2 r).mul (d4 r)).div_const 4).div_const (Real.pi : ℂ)).div (d3 r) (by simp [h0])).congr_deriv ?_
      simp only [Pi.mul_apply]
      field_simp
      ring) (fun r hr => by
      have h0 : (r : ℂ) ≠ 0 := ofReal_ne_zero.2 hr.ne'
      have d5 : HasDerivAt (fun r : ℝ => (r : ℂ) * r * r * (r * r)) (5 * (r * r * r * r)) r :=
        ((d3 r).mul ((d1 r).mul (d1 r))).congr_deriv (by simp only [Pi.mul_apply]; ring)
      have d6 : HasDerivAt (fun r : ℝ => -3 - 3 * (I * k * r) - (I * k * r) ^ 2) (-3 * (I * k) - 2 * (I * k) * (I * k * r)) r := by
        have := ((d1 r).const_mul (I * k))
        exact (((this.const_mul 3).const_sub (-3)).sub (this.pow 2)).congr_deriv (by simp; ring)
      have e : (fun r : ℝ => (1 / r) • (exp (-I * k * r) * (-3 - 3 * (I * k * r) - (I * k * r) ^ 2) / 4 / Real.pi / ((r : ℂ) * r * r * r))) =
          fun r : ℝ => exp (-I * k * r) * (-3 - 3 * (I * k * r) - (I * k * r) ^ 2) / 4 / Real.pi / ((r : ℂ) * r * r * (r * r)) := by
        funext r; rw [real_smul]; push_cast; ring
      rw [e]
      refine (((((d2 r).mul d6).div_const 4).div_const (Real.pi : ℂ)).div d5 (by simp [h0])).congr_deriv ?_
      simp only [Pi.mul_apply]
      field_simp
      ring) (fun r hr => by
      have this : ContDiffAt ℝ 2 (fun r : ℝ => (r : ℂ)) r := ofRealCLM.contDiff.contDiffAt
      have h2 : ContDiffAt ℝ 2 (fun r : ℝ => exp (-I * k * r)) r := (contDiffAt_const.mul this).cexp
      have h4 : ContDiffAt ℝ 2 (fun r : ℝ => 1 + I * k * (r : ℂ)) r := contDiffAt_const.add (contDiffAt_const.mul this)
      have h3 : ContDiffAt ℝ 2 (fun r : ℝ => ((r⁻¹ : ℝ) : ℂ)) r := ofRealCLM.contDiff.contDiffAt.comp r (contDiffAt_inv ℝ hr.ne')
      have e : (fun r : ℝ => exp (-I * k * r) * (1 + I * k * r) / 4 / Real.pi / ((r : ℂ) * r * r)) =
          fun r : ℝ => exp (-I * k * r) * (1 + I * k * r) * (1 / 4 / Real.pi) * (((r⁻¹ : ℝ) : ℂ) * ((r⁻¹ : ℝ) : ℂ) * ((r⁻¹ : ℝ) : ℂ)) := by
        funext r; push_cast; ring
      rw [e]
      exact ((h2.mul h4).mul contDiffAt_const).mul ((h3.mul h3).mul h3))
  refine ⟨by rw [e]; exact k1, ?_⟩
  have ex := congrFun e x
  simp only at ex
  rw [ex, e, k2]
  simp only [real_smul, finrank_euclideanSpace, Fintype.card_fin, ofReal_div, ofReal_one]
  push_cast
  field_simp
  ring_nf
  have h3 : I ^ 3 = -I := by rw [pow_succ, I_sq]; ring
  simp only [I_sq, h3]
  ring

/-- C60 (Laplace): for every vector of degrees of freedom and every quadrature rule, the evaluated single layer potential `U` and double
layer potential `W` are harmonic at every point `x` different from the quadrature nodes on the surface, and the evaluated gradient
potential `G` is the derivative of `U`.  The values do not depend on the schedule. -/
theorem C60_laplace {V : Type} (near : V → V → Bool) (corner : Nat → Nat → V) (np M : Nat) (hP : 0 < np)
    (e0 : Evaluator ℝ) (space : Space ℝ) (ht : initElementTree near corner np M = some space.t)
    (hT : space.trans.rows = 1 * ((space.P + 1) * (space.P + 1) * space.t.nElements)) (f : EMat ℝ)
    (hf : f.rows = space.trans.cols) (hc : f.cols = 1) (junk : Nat → ℝ) (Q : Cubature ℝ) :
    ∃ e els, initWith 1 e0 space f = some e ∧ elements space.t = some els ∧ ∃ (U W : V3 → ℝ) (G : V3 → Fin 3 → ℝ),
      (∀ (x : V3) (S : Omp.Schedule space.t.nElements),
        Potential.evaluate junk (singleLayerReal laplace) e Q (fun _ : Fin 1 => x) S.sched = some (fun _ _ => U x) ∧
        Potential.evaluate junk Potential.laplaceDL e Q (fun _ : Fin 1 => x) S.sched = some (fun _ _ => W x) ∧
        Potential.evaluate junk Potential.laplaceSLGrad e Q (fun _ : Fin 1 => x) S.sched = some (fun _ k => G x k)) ∧
      ∀ x : V3, (∀ a ∈ els, ∀ j < Q.size, x ≠ (elementPoint space.t space.geo a (Q.xi j)).f) →
        ContDiffAt ℝ 2 U x ∧ Laplacian.laplacian U x = 0 ∧ ContDiffAt ℝ 2 W x ∧ Laplacian.laplacian W x = 0 ∧
        ∃ L : V3 →L[ℝ] ℝ, HasFDerivAt U L x ∧ ∀ v, L v = ∑ k, G x k * v k := by
  obtain ⟨e, els, a1, a2, a3⟩ := C53_single_layer near corner np M hP e0 space ht hT f hf hc junk laplace
  obtain ⟨e', els', b1, b2, b3⟩ := C53_laplace_double_layer near corner np M hP e0 space ht hT f hf hc junk
  obtain ⟨e'', els'', c1, c2, c3⟩ := C53_laplace_gradient near corner np M hP e0 space ht hT f hf hc junk
  obtain rfl : e = e' := Option.some.inj (a1.symm.trans b1)
  obtain rfl : els = els' := Option.some.inj (a2.symm.trans b2)
  obtain rfl : e = e'' := Option.some.inj (a1.symm.trans c1)
  obtain rfl : els = els'' := Option.some.inj (a2.symm.trans c2)
  refine ⟨e, els, a1, a2, _, _, _, fun x S => ⟨a3 Q 1 (fun _ => x) S, b3 Q 1 (fun _ => x) S, c3 Q 1 (fun _ => x) S⟩, ?_⟩
  intro x hx
  have q1 := quad_pde (E := ℝ) space.t space.geo Q els (fun x a p => algebraMap ℝ ℝ (laplace x p.f * ‖cross3 p.dx p.dy‖) *
            discreteFunction space.trans f space.t.nElements space.P 0 (space.t.id a) (getH space.t a) p.xi) 0 x (by
    intro a ha j hj
    refine scaled_pde _ _ (‖cross3 (elementPoint space.t space.geo a (Q.xi j)).dx (elementPoint space.t space.geo a (Q.xi j)).dy‖ *
      discreteFunction space.trans f space.t.nElements space.P 0 (space.t.id a) (getH space.t a) (elementPoint space.t space.geo a (Q.xi j)).xi)
      0 x (pde_laplace x _ (hx a ha j hj)) fun z => ?_
    simp only [Algebra.algebraMap_self, RingHom.id_apply]
    ring)
  have q2 := quad_pde (E := ℝ) space.t space.geo Q els (fun x a p => algebraMap ℝ ℝ (Kernel.laplaceDL x p.f (cross3 p.dx p.dy)) *
            discreteFunction space.trans f space.t.nElements space.P 0 (space.t.id a) (getH space.t a) p.xi) 0 x (by
    intro a ha j hj
    refine scaled_pde _ _ (
      discreteFunction space.trans f space.t.nElements space.P 0 (space.t.id a) (getH space.t a) (elementPoint space.t space.geo a (Q.xi j)).xi)
      0 x (pde_laplaceDL x _ (cross3 (elementPoint space.t space.geo a (Q.xi j)).dx (elementPoint space.t space.geo a (Q.xi j)).dy)
        (hx a ha j hj)) fun z => ?_
    simp only [Algebra.algebraMap_self, RingHom.id_apply]
    ring)
  refine ⟨q1.1, by rw [q1.2, zero_mul], q2.1, by rw [q2.2, zero_mul], ?_⟩
  obtain ⟨L, hL1, hL2⟩ := quad_fderiv (E := ℝ) space.t space.geo Q els (fun x a p => algebraMap ℝ ℝ (laplace x p.f * ‖cross3 p.dx p.dy‖) *
            discreteFunction space.trans f space.t.nElements space.P 0 (space.t.id a) (getH space.t a) p.xi)
    (fun v a p => ∑ k, (algebraMap ℝ ℝ (Kernel.laplaceSLGrad x p.f k * ‖cross3 p.dx p.dy‖) *
            discreteFunction space.trans f space.t.nElements space.P 0 (space.t.id a) (getH space.t a) p.xi) * v k) x (by
    intro a ha j hj
    obtain ⟨L, l1, -, l2⟩ := (C51_laplace x _ (hx a ha j hj)).2
    refine ⟨_, (l1.mul_const ‖cross3 (elementPoint space.t space.geo a (Q.xi j)).dx (elementPoint space.t space.geo a (Q.xi j)).dy‖).mul_const
      (discreteFunction space.trans f space.t.nElements space.P 0 (space.t.id a) (getH space.t a) (elementPoint space.t space.geo a (Q.xi j)).xi), ?_⟩
    intro v
    simp only [ContinuousLinearMap.smul_apply, l2, PiLp.inner_apply, smul_eq_mul, mul_sum, Algebra.algebraMap_self, RingHom.id_apply]
    refine sum_congr rfl fun k _ => ?_
    simp
    ring)
  refine ⟨L, hL1, fun v => (hL2 v).trans (surfaceQuad_three _ _ _ _ _ _ _ fun _ _ => rfl)⟩

/-- C60 (Helmholtz): for every complex wave number `κ`, every vector of degrees of freedom and every quadrature rule, the evaluated
single and double layer potentials solve `Δ U + κ^2 U = 0` at every point different from the quadrature nodes on the surface. -/
theorem C60_helmholtz {V : Type} (near : V → V → Bool) (corner : Nat → Nat → V) (np M : Nat) (hP : 0 < np)
    (e0 : Evaluator ℂ) (space : Space ℂ) (ht : initElementTree near corner np M = some space.t)
    (hT : space.trans.rows = 1 * ((space.P + 1) * (space.P + 1) * space.t.nElements)) (f : EMat ℂ)
    (hf : f.rows = space.trans.cols) (hc : f.cols = 1) (junk : Nat → ℂ) (κ : ℂ) (Q : Cubature ℝ) :
    ∃ e els, initWith 1 e0 space f = some e ∧ elements space.t = some els ∧ ∃ U W : V3 → ℂ,
      (∀ (x : V3) (S : Omp.Schedule space.t.nElements),
        Potential.evaluate junk (Potential.helmholtzSL κ) e Q (fun _ : Fin 1 => x) S.sched = some (fun _ _ => U x) ∧
        Potential.evaluate junk (Potential.helmholtzDL κ) e Q (fun _ : Fin 1 => x) S.sched = some (fun _ _ => W x)) ∧
      ∀ x : V3, (∀ a ∈ els, ∀ j < Q.size, x ≠ (elementPoint space.t space.geo a (Q.xi j)).f) →
        ContDiffAt ℝ 2 U x ∧ Laplacian.laplacian U x + κ ^ 2 * U x = 0 ∧
        ContDiffAt ℝ 2 W x ∧ Laplacian.laplacian W x + κ ^ 2 * W x = 0 := by
  obtain ⟨e, els, a1, a2, a3⟩ := C53_helmholtz near corner np M hP e0 space ht hT f hf hc junk κ
  refine ⟨e, els, a1, a2, _, _, fun x S => a3 Q 1 (fun _ => x) S, ?_⟩
  intro x hx
  have q1 := quad_pde (E := ℂ) space.t space.geo Q els (fun x a p => helmholtz κ x p.f * (‖cross3 p.dx p.dy‖ : ℂ) *
            discreteFunction space.trans f space.t.nElements space.P 0 (space.t.id a) (getH space.t a) p.xi) (-κ ^ 2) x (by
    intro a ha j hj
    refine scaled_pde _ _ ((‖cross3 (elementPoint space.t space.geo a (Q.xi j)).dx (elementPoint space.t space.geo a (Q.xi j)).dy‖ : ℂ) *
      discreteFunction space.trans f space.t.nElements space.P 0 (space.t.id a) (getH space.t a) (elementPoint space.t space.geo a (Q.xi j)).xi)
      _ x (pde_helmholtz κ x _ (hx a ha j hj)) fun z => ?_
    ring)
  have q2 := quad_pde (E := ℂ) space.t space.geo Q els (fun x a p => Kernel.helmholtzDL κ x p.f (cross3 p.dx p.dy) *
            discreteFunction space.trans f space.t.nElements space.P 0 (space.t.id a) (getH space.t a) p.xi) (-κ ^ 2) x (by
    intro a ha j hj
    refine scaled_pde _ _ (
      discreteFunction space.trans f space.t.nElements space.P 0 (space.t.id a) (getH space.t a) (elementPoint space.t space.geo a (Q.xi j)).xi)
      _ x (pde_helmholtzDL κ x _ (cross3 (elementPoint space.t space.geo a (Q.xi j)).dx (elementPoint space.t space.geo a (Q.xi j)).dy)
        (hx a ha j hj)) fun z => ?_
    ring)
  refine ⟨q1.1, ?_, q2.1, ?_⟩
  · have := q1.2
    rw [this]; ring
  · have := q2.2
    rw [this]; ring

theorem sum_two_pde (g g' : V3 → ℂ) (l : ℂ) (x : V3) (h : ContDiffAt ℝ 2 g x ∧ Laplacian.laplacian g x = l * g x)
    (h' : ContDiffAt ℝ 2 g' x ∧ Laplacian.laplacian g' x = l * g' x) :
    ContDiffAt ℝ 2 (fun x => g x + g' x) x ∧ Laplacian.laplacian (fun x => g x + g' x) x = l * (g x + g' x) := by
  refine ⟨h.1.add h'.1, ?_⟩
  have := ContDiffAt.laplacian_add h.1 h'.1
  rw [mul_add, ← h.2, ← h'.2]
  exact this

theorem pde_maxwellGrad (k : ℂ) (x y : V3) (d : Fin 3) (h : x ≠ y) :
    ContDiffAt ℝ 2 (fun x => maxwellGrad k x y d) x ∧
      Laplacian.laplacian (fun x => maxwellGrad k x y d) x = -k ^ 2 * maxwellGrad k x y d :=
  scaled_pde (fun x => Kernel.helmholtzDL k x y (EuclideanSpace.single d 1)) _ (-1) _ x (pde_helmholtzDL k x y _ h) fun z => by
    simp only [maxwellGrad, Kernel.helmholtzDL, EuclideanSpace.inner_single_right]
    simp
    ring

/-- C60 (Maxwell): for every complex wave number `κ`, every vector of degrees of freedom and every quadrature rule, each component
of the evaluated Maxwell single layer potential solves `Δ E + κ^2 E = 0` at every point different from the quadrature nodes on the
surface. -/
theorem C60_maxwell {V : Type} (near : V → V → Bool) (corner : Nat → Nat → V) (np M : Nat) (hP : 0 < np)
    (e0 : Evaluator ℂ) (space : Space ℂ) (ht : initElementTree near corner np M = some space.t)
    (hT : space.trans.rows = 2 * ((space.P + 1) * (space.P + 1) * space.t.nElements)) (f : EMat ℂ)
    (hf : f.rows = space.trans.cols) (hc : f.cols = 1) (junk : Nat → ℂ) (κ : ℂ) (Q : Cubature ℝ) :
    ∃ e els, initWith 2 e0 space f = some e ∧ elements space.t = some els ∧ ∃ U : V3 → Fin 3 → ℂ,
      (∀ (x : V3) (S : Omp.Schedule space.t.nElements),
        Potential.evaluate junk (Potential.maxwellSL κ) e Q (fun _ : Fin 1 => x) S.sched = some (fun _ => U x)) ∧
      ∀ x : V3, (∀ a ∈ els, ∀ j < Q.size, x ≠ (elementPoint space.t space.geo a (Q.xi j)).f) → ∀ i,
        ContDiffAt ℝ 2 (fun x => U x i) x ∧ Laplacian.laplacian (fun x => U x i) x + κ ^ 2 * U x i = 0 := by
  obtain ⟨e, els, a1, a2, a3⟩ := C53_maxwell near corner np M hP e0 space ht hT f hf hc junk κ
  refine ⟨e, els, a1, a2, _, fun x S => a3 Q 1 (fun _ => x) S, ?_⟩
  intro x hx i
  have q1 := quad_pde (E := ℂ) space.t space.geo Q els (fun x a p => helmholtz κ x p.f *
              discreteField space.trans f space.t.nElements space.P (space.t.id a) (getH space.t a) p.xi p.dx p.dy i +
            1 / κ ^ 2 * maxwellGrad κ x p.f i *
              discreteDiv space.trans f space.t.nElements space.P (space.t.id a) (getH space.t a) p.xi) (-κ ^ 2) x (by
    intro a ha j hj
    refine sum_two_pde _ _ _ x
      (scaled_pde _ _ (discreteField space.trans f space.t.nElements space.P (space.t.id a) (getH space.t a)
        (elementPoint space.t space.geo a (Q.xi j)).xi (elementPoint space.t space.geo a (Q.xi j)).dx (elementPoint space.t space.geo a (Q.xi j)).dy i)
        _ x (pde_helmholtz κ x _ (hx a ha j hj)) fun z => mul_comm _ _)
      (scaled_pde _ _ (1 / κ ^ 2 * discreteDiv space.trans f space.t.nElements space.P (space.t.id a) (getH space.t a)
        (elementPoint space.t space.geo a (Q.xi j)).xi) _ x (pde_maxwellGrad κ x _ i (hx a ha j hj)) fun z => by ring))
  refine ⟨q1.1, ?_⟩
  have := q1.2
  rw [this]; ring

/-- Non-vacuity: six patches on the plane `z = 0` (all the same), two refinements, degree 1; the point `(0, 0, 1)` is not on the surface. -/
example : ∃ t : Mesh.Tree ℝ, initElementTree (fun (a b : Nat) => a == b) (fun i j => i + j) 6 2 = some t ∧
    ∃ U : V3 → ℝ, ContDiffAt ℝ 2 U !₂[0, 0, 1] ∧ Laplacian.laplacian U !₂[0, 0, 1] = 0 := by
  obtain ⟨t, k1, k2, k3, -⟩ := tree_facts (K := ℝ) (fun (a b : Nat) => a == b) (fun i j => i + j) 6 2 (by omega)
  refine ⟨t, k1, ?_⟩
  obtain ⟨e, els, h1, h2, U, W, G, h3, h4⟩ := C60_laplace _ _ 6 2 (by omega)
    ⟨⟨t, 1, fun _ s => (!₂[s.1, s.2, 0], !₂[1, 0, 0], !₂[0, 1, 0]), ⟨384, 384, fun i j => if i = j then 1 else 0⟩⟩, ⟨0, 0, fun _ _ => 0⟩, 0, 0, fun _ => 0⟩
    ⟨t, 1, fun _ s => (!₂[s.1, s.2, 0], !₂[1, 0, 0], !₂[0, 1, 0]), ⟨384, 384, fun i j => if i = j then 1 else 0⟩⟩ k1 (by simp [k3])
    ⟨384, 1, fun i _ => i⟩ rfl rfl (fun _ => 0) ⟨1, fun _ => 1, fun _ => (1 / 2, 1 / 2)⟩
  obtain ⟨a, b, -⟩ := h4 !₂[0, 0, 1] (by
    intro a _ j _ h
    have := congrFun (congrArg (WithLp.ofLp) h) 2
    simp [elementPoint] at this)
  exact ⟨U, a, b⟩

end Bembel.Props
