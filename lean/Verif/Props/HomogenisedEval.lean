import Verif.Props.HomogenisedKernel
import Verif.Props.Operators
import Verif.Props.Potential
/-!
# Property theorems C65: evaluation of the homogenised kernel
-/

namespace Bembel.Props
open Spec Sph Homog Finset

/-- C65: the value of the kernel.  The degree in the sum is one less than documented and the last term has a wrong factor. -/
theorem C65_evaluated (cs : List ℝ) (deg : Nat) (hd : 2 ≤ deg) (hl : deg * deg ≤ cs.length) (hsym : SymmetricUpTo (deg - 1) (coefficient cs))
    (x y : V3) : evaluateKernel cs deg x y = some (expandedKernel (deg - 1) (coefficient cs) (x - y) +
      ((if deg = 2 then 1 else 2) * ‖x - y‖ ^ deg - 2 * ‖x - y‖ ^ (deg - 1)) * coefficient cs (deg - 1) (deg - 1 : Nat) *
        (harmonic (deg - 1) (deg - 1 : Nat) ((1 / ‖x - y‖) • (x - y))).re) := by
  obtain ⟨r, h1, h2⟩ := C55_solid (x - y) cs deg false hd hl _ rfl
  unfold evaluateKernel
  rw [h1]
  simp only [Option.bind_eq_bind, Option.bind_some]
  congr 1
  have hs : SymmetricCoefficients deg cs := fun n hn m m1 m2 => hsym n (by omega) m m1 m2
  rw [symmetric_series _ _ _ _ hs] at h2
  have h3 := congrArg Complex.re h2
  rw [Complex.ofReal_re, Complex.add_re, Complex.ofReal_re] at h3
  have h4 : (harmonicSeries deg (solidWeight false ‖x - y‖) (coefficient cs) ((1 / ‖x - y‖) • (x - y))).re =
      solidExpansion (deg - 1) (coefficient cs) (x - y) := by
    unfold harmonicSeries solidExpansion
    rw [Complex.re_sum, show deg - 1 + 1 = deg by omega]
    refine sum_congr rfl fun n _ => ?_
    rw [Complex.re_sum]
    refine sum_congr rfl fun m _ => ?_
    rw [Complex.re_ofReal_mul]
    simp only [solidWeight, Bool.false_eq_true, if_false]
    ring
  rw [h3, h4, C65_modified]
  unfold expandedKernel
  simp only [solidWeight, Bool.false_eq_true, if_false]
  ring

theorem kernel_eq (cs : List ℝ) (deg : Nat) (hd : 2 ≤ deg) (hl : deg * deg ≤ cs.length) (hsym : SymmetricUpTo (deg - 1) (coefficient cs))
    (h0 : coefficient cs (deg - 1) (deg - 1 : Nat) = 0) (x y : V3) :
    evaluateKernel cs deg x y = some (expandedKernel (deg - 1) (coefficient cs) (x - y)) := by
  rw [C65_evaluated cs deg hd hl hsym, h0]; simp

/-- C65 (part): if the coefficients of degree `deg` and the coefficient with degree and order `deg - 1` are zero, the evaluated kernel is
the documented one.  Missing: other coefficients; see `C65_kernel_violated`. -/
theorem C65_kernel_partial (cs : List ℝ) (deg : Nat) (hd : 2 ≤ deg) (hl : deg * deg ≤ cs.length) (hsym : SymmetricUpTo deg (coefficient cs))
    (h0 : coefficient cs (deg - 1) (deg - 1 : Nat) = 0) (h1 : ∀ m : Int, -deg ≤ m → m ≤ deg → coefficient cs deg m = 0) (x y : V3) :
    evaluateKernel cs deg x y = some (expandedKernel deg (coefficient cs) (x - y)) := by
  rw [kernel_eq cs deg hd hl (fun n hn => hsym n (by omega)) h0]
  unfold expandedKernel solidExpansion
  rw [show deg - 1 + 1 = deg by omega, sum_range_succ]
  congr 2
  rw [left_eq_add]
  refine sum_eq_zero fun m hm => ?_
  obtain ⟨m1, m2⟩ := mem_Icc.1 hm
  rw [h1 m m1 m2, zero_mul]

theorem legendre_one (n : Nat) : legendreDeriv n 0 1 = 1 ∧ legendreDeriv (n + 1) 0 1 = 1 := by
  induction n with
  | zero => rw [D_sub, D_zero_zero]; simp
  | succ n ih =>
    refine ⟨ih.2, ?_⟩
    have := D_rec n 0 1
    rw [ih.1, ih.2] at this
    have hn : (n : ℝ) + 2 ≠ 0 := by positivity
    push_cast at this
    apply mul_left_cancel₀ hn
    linear_combination this

/-- C65 fails: for every degree from two on there are coefficients, equal for the orders `m` and `-m`, and points for which the evaluated
kernel is not the documented one: the harmonics of degree `deg` are left out. -/
theorem C65_kernel_violated (deg : Nat) (hd : 2 ≤ deg) : ∃ (cs : List ℝ) (x y : V3), cs.length = (deg + 1) * (deg + 1) ∧
    SymmetricUpTo deg (coefficient cs) ∧ OffCentres (x - y) ∧
    evaluateKernel cs deg x y ≠ some (expandedKernel deg (coefficient cs) (x - y)) := by
  set cs : List ℝ := (List.range ((deg + 1) * (deg + 1))).map (fun i => if i = deg * deg + deg then 1 else 0) with hcs
  have hlen : cs.length = (deg + 1) * (deg + 1) := by rw [hcs, List.length_map, List.length_range]
  have hc : ∀ n ≤ deg, ∀ m : Int, -n ≤ m → m ≤ n → coefficient cs n m = if n = deg ∧ m = 0 then 1 else 0 := by
    intro n hn m m1 m2
    rw [hcs, coefficient_list _ _ _ _ (entry_lt m1 m2 hn)]
    congr 1
    have hb := entry_bounds m1 m2
    refine propext ⟨fun h => ?_, fun h => ?_⟩
    · rw [h] at hb
      have : n = deg := by
        by_contra hne
        have : (n + 1) * (n + 1) ≤ deg * deg := Nat.mul_le_mul (by omega) (by omega)
        omega
      subst this
      refine ⟨rfl, ?_⟩
      unfold entry at h
      have hh : (0 : Int) ≤ (n : Int) * n + n + m := by nlinarith [mul_self_nonneg (n : Int)]
      have := Int.toNat_of_nonneg hh
      rw [h] at this
      push_cast at this
      linarith
    · rw [h.1, h.2]; unfold entry; rw [add_zero]; norm_cast
  have hsym : SymmetricUpTo deg (coefficient cs) := by
    intro n hn m m1 m2
    rw [hc n hn m m1 m2, hc n hn (-m) (by omega) (by omega)]
    simp
  refine ⟨cs, !₂[0, 0, 1 / 2], 0, hlen, hsym, ?_, ?_⟩
  · rw [sub_zero]; exact off_of_half _ 2 (Or.inr (by simp))
  · rw [kernel_eq cs deg hd (by rw [hlen]; exact Nat.mul_le_mul (by omega) (by omega)) (fun n hn => hsym n (by omega)) (by
      rw [hc (deg - 1) (by omega) _ (by omega) (by omega), if_neg (by omega)])]
    set x : V3 := !₂[0, 0, 1 / 2] with hx
    have hnorm : ‖x‖ = 1 / 2 := by
      have : ‖x‖ * ‖x‖ = 1 / 2 * (1 / 2) := by rw [← sq3_norm]; simp [sq3, hx]
      exact (mul_self_inj (norm_nonneg _) (by norm_num)).1 this
    intro h
    rw [sub_zero] at h
    have h2 := Option.some.inj h
    unfold expandedKernel solidExpansion at h2
    rw [show deg - 1 + 1 = deg by omega, sum_range_succ _ deg] at h2
    have h3 : ∑ m ∈ Icc (-(deg : Int)) deg, coefficient cs deg m * (‖x‖ ^ deg * (harmonic deg m ((1 / ‖x‖) • x)).re) = 0 := by linarith
    rw [degree_sum deg (coefficient cs deg) (hsym deg le_rfl) x, sum_eq_single 0] at h3
    · rw [hc deg le_rfl _ (by simp) (by simp), if_pos ⟨rfl, rfl⟩] at h3
      unfold ss fac at h3
      rw [harmonicPos_re] at h3
      have e2 : ((1 / ‖x‖) • x) 2 = 1 := by rw [PiLp.smul_apply, hnorm]; simp [hx]
      rw [e2, cr_zero] at h3
      unfold q at h3
      rw [(legendre_one deg).1, hnorm] at h3
      have := sphericalNorm_pos deg 0
      have h4 : (0 : ℝ) < (1 / 2) ^ deg := by positivity
      have h5 := mul_pos this h4
      simp only [if_true, Nat.cast_zero, one_mul, mul_one] at h3
      linarith
    · intro j hj hj0
      rw [hc deg le_rfl _ (by omega) (by have := mem_range.1 hj; omega), if_neg (by simpa using hj0), zero_mul]
    · intro h; simp at h

/-! ## the differential equation -/

theorem ss_pde (n m : Nat) (hm : m ≤ n) (x : V3) (hx : x ≠ 0) :
    ContDiffAt ℝ 2 (ss n m) x ∧ Laplacian.laplacian (ss n m) x = 0 ∧ fderiv ℝ (ss n m) x x = n * ss n m x := by
  obtain ⟨dU, hU⟩ := solidPoly_harmonic m (n - m)
  rw [show m + (n - m) = n by omega] at hU
  have e : ss n m =ᶠ[nhds x] fun x => sphericalNorm n m * solidPoly m (n - m) x := by
    filter_upwards [isOpen_ne.mem_nhds hx] with z hz
    exact harmonicPos_solid n m hm z hz
  have hC := hU.const_mul (sphericalNorm n m)
  refine ⟨hC.smooth.contDiffAt.congr_of_eventuallyEq e, ?_, ?_⟩
  · rw [Filter.EventuallyEq.eq_of_nhds (InnerProductSpace.laplacian_congr_nhds e)]; exact hC.lap x
  · rw [e.fderiv_eq, hC.euler, e.eq_of_nhds]

theorem norm_pde (x : V3) (hx : x ≠ 0) : ContDiffAt ℝ 2 (fun z : V3 => ‖z‖) x ∧ Laplacian.laplacian (fun z : V3 => ‖z‖) x = 2 / ‖x‖ := by
  have h0 : 0 < ‖x‖ := norm_pos_iff.2 hx
  have := Radial.laplacian (V := V3) (fun r : ℝ => r) (fun _ => 1) (fun r => -(1 / r ^ 2)) 0 x hx (fun r _ => hasDerivAt_id r) (by
    intro r hr
    simp only [smul_eq_mul, mul_one, one_div]
    exact hasDerivAt_inv hr.ne') (fun r _ => contDiffAt_id)
  simp only [sub_zero, smul_eq_mul, finrank_euclideanSpace, Fintype.card_fin] at this
  refine ⟨contDiffAt_norm ℝ hx, this.trans ?_⟩
  field_simp
  norm_num

/-- The Laplacian of `|x|` times a solid harmonic of degree `n`. -/
theorem norm_ss_pde (n m : Nat) (hm : m ≤ n) (x : V3) (hx : x ≠ 0) : ContDiffAt ℝ 2 (fun z => ‖z‖ * ss n m z) x ∧
    Laplacian.laplacian (fun z => ‖z‖ * ss n m z) x = 2 * (n + 1) * ss n m x / ‖x‖ := by
  obtain ⟨s1, s2, s3⟩ := ss_pde n m hm x hx
  obtain ⟨r1, r2⟩ := norm_pde x hx
  have h0 : ‖x‖ ≠ 0 := norm_ne_zero_iff.2 hx
  refine ⟨r1.mul s1, ?_⟩
  rw [lap_mul _ _ x r1 s1, r2, s2]
  have hd : ∀ v, fderiv ℝ (fun z : V3 => ‖z‖) x v = (1 / ‖x‖) * (x 0 * v 0 + x 1 * v 1 + x 2 * v 2) := by
    intro v
    have := Radial.hasFDerivAt_dist (0 : V3) x hx
    simp only [sub_zero] at this
    rw [this.fderiv, smul_apply, innerSL_apply_apply, inner3, smul_eq_mul]
  have e : ∑ i, fderiv ℝ (fun z : V3 => ‖z‖) x (sb i) * fderiv ℝ (ss n m) x (sb i) = (1 / ‖x‖) * (n * ss n m x) := by
    rw [← s3, fderiv_self, mul_sum]
    refine sum_congr rfl fun i _ => ?_
    rw [hd]
    fin_cases i <;> simp [sb_apply, mul_assoc]
  rw [e]
  field_simp
  ring

theorem solidExpansion_pde (N : Nat) (c : Nat → Int → ℝ) (x : V3) (hx : x ≠ 0) :
    ContDiffAt ℝ 2 (solidExpansion N c) x ∧ Laplacian.laplacian (solidExpansion N c) x = 0 := by
  have h := sum_pde (E := ℝ) (range (N + 1)) (fun n z => ∑ m ∈ Icc (-(n : Int)) n, c n m * (‖z‖ ^ n * (harmonic n m ((1 / ‖z‖) • z)).re)) 0 x (by
    intro n _
    refine sum_pde (E := ℝ) _ (fun m z => c n m * (‖z‖ ^ n * (harmonic n m ((1 / ‖z‖) • z)).re)) 0 x fun m hm => ?_
    obtain ⟨m1, m2⟩ := mem_Icc.1 hm
    obtain ⟨s1, s2, -⟩ := ss_pde n m.natAbs (by omega) x hx
    simp only [harmonic_re]
    refine ⟨contDiffAt_const.mul s1, ?_⟩
    rw [zero_mul]
    exact (lap_const_mul (c n m) (ss n m.natAbs) x s1).trans (by rw [s2, mul_zero]))
  exact ⟨h.1, by rw [← zero_mul (∑ i ∈ range (N + 1), _)]; exact h.2⟩

theorem expandedKernel_pde (N : Nat) (c : Nat → Int → ℝ) (x : V3) (hx : OffCentres x) :
    ContDiffAt ℝ 2 (expandedKernel N c) x ∧ Laplacian.laplacian (expandedKernel N c) x = 1 := by
  obtain ⟨a1, a2⟩ := modified_pde x hx
  obtain ⟨b1, b2⟩ := solidExpansion_pde N c x (off_ne_zero hx)
  have e : expandedKernel N c = modifiedKernel + solidExpansion N c := rfl
  rw [e]
  exact ⟨a1.add b1, by rw [a1.laplacian_add b1, a2, b2, add_zero]⟩

/-- C65: away from the 27 centres the documented kernel has Laplacian one, for all coefficients. -/
theorem C65_documented_pde (N : Nat) (c : Nat → Int → ℝ) (x : V3) (hx : OffCentres x) : Laplacian.laplacian (expandedKernel N c) x = 1 :=
  (expandedKernel_pde N c x hx).2

theorem evaluated_pde (cs : List ℝ) (deg : Nat) (hd : 2 ≤ deg) (hl : deg * deg ≤ cs.length) (hsym : SymmetricUpTo (deg - 1) (coefficient cs))
    (x : V3) (hx : OffCentres x) : ContDiffAt ℝ 2 (fun x => kernel cs deg x 0) x ∧ Laplacian.laplacian (fun x => kernel cs deg x 0) x =
      1 + (if deg = 2 then 1 else 2) * (2 * deg) * coefficient cs (deg - 1) (deg - 1 : Nat) *
        ‖x‖ ^ (deg - 2) * (harmonic (deg - 1) (deg - 1 : Nat) ((1 / ‖x‖) • x)).re := by
  have h0 := off_ne_zero hx
  have hn : ‖x‖ ≠ 0 := norm_ne_zero_iff.2 h0
  obtain ⟨a1, a2⟩ := expandedKernel_pde (deg - 1) (coefficient cs) x hx
  obtain ⟨b1, b2, -⟩ := ss_pde (deg - 1) (deg - 1) le_rfl x h0
  obtain ⟨c1, c2⟩ := norm_ss_pde (deg - 1) (deg - 1) le_rfl x h0
  set c := coefficient cs (deg - 1) (deg - 1 : Nat) with hc
  have e : (fun x => kernel cs deg x 0) = fun z => expandedKernel (deg - 1) (coefficient cs) z +
      (((if deg = 2 then 1 else 2) * c) * (‖z‖ * ss (deg - 1) (deg - 1) z) - (2 * c) * ss (deg - 1) (deg - 1) z) := by
    funext z
    unfold kernel
    rw [C65_evaluated cs deg hd hl hsym, sub_zero, Option.getD_some, harmonic_re, Int.natAbs_natCast]
    congr 1
    unfold ss
    have : ‖z‖ ^ deg = ‖z‖ * ‖z‖ ^ (deg - 1) := by rw [← pow_succ', show deg - 1 + 1 = deg by omega]
    rw [this]
    ring
  have d1 : ContDiffAt ℝ 2 (fun z => ((if deg = 2 then 1 else 2) * c) * (‖z‖ * ss (deg - 1) (deg - 1) z)) x := contDiffAt_const.mul c1
  have d2 : ContDiffAt ℝ 2 (fun z => (2 * c) * ss (deg - 1) (deg - 1) z) x := contDiffAt_const.mul b1
  rw [e]
  refine ⟨a1.add (d1.sub d2), ?_⟩
  have := a1.laplacian_add (d1.sub d2)
  refine (show _ = _ from this).trans ?_
  rw [a2]
  congr 1
  refine (show _ = _ from d1.laplacian_sub d2).trans ?_
  rw [lap_const_mul _ _ x c1, lap_const_mul _ _ x b1, c2, b2, harmonic_re, Int.natAbs_natCast]
  unfold ss
  obtain ⟨k, rfl⟩ : ∃ k, deg = k + 2 := ⟨deg - 2, by omega⟩
  simp only [show k + 2 - 1 = k + 1 by omega, show k + 2 - 2 = k by omega]
  push_cast
  rw [pow_succ]
  field_simp
  ring

theorem kernel_shift (cs : List ℝ) (deg : Nat) (x y : V3) : kernel cs deg x y = kernel cs deg (x - y) 0 := by
  unfold kernel evaluateKernel; rw [sub_zero]

/-- C65: the Laplacian of the evaluated kernel in its first argument.  It is one, as documented, if and only if the coefficient with degree
and order `deg - 1` or the harmonic is zero. -/
theorem C65_pde (cs : List ℝ) (deg : Nat) (hd : 2 ≤ deg) (hl : deg * deg ≤ cs.length) (hsym : SymmetricUpTo (deg - 1) (coefficient cs))
    (x y : V3) (hx : OffCentres (x - y)) : Laplacian.laplacian (fun x => kernel cs deg x y) x =
      1 + (if deg = 2 then 1 else 2) * (2 * deg) * coefficient cs (deg - 1) (deg - 1 : Nat) *
        ‖x - y‖ ^ (deg - 2) * (harmonic (deg - 1) (deg - 1 : Nat) ((1 / ‖x - y‖) • (x - y))).re := by
  have h := (evaluated_pde cs deg hd hl hsym (x - y) hx).2
  have e : (fun x => kernel cs deg x y) = fun x => (fun z => kernel cs deg z 0) (x - y) := by funext z; rw [kernel_shift]
  rw [e, ← h]
  simp only [InnerProductSpace.laplacian_eq_iteratedFDeriv_stdOrthonormalBasis]
  refine sum_congr rfl fun i _ => ?_
  rw [iteratedFDeriv_comp_sub (f := fun z => kernel cs deg z 0)]

/-- C65: the integrand and the kernel of the fast multipole method of the operator agree with the weak form with the evaluated kernel. -/
theorem C65_operator (cs : List ℝ) (deg : Nat) : Contracts (singleLayer cs deg) valueT ∧
    ∀ p1 p2 : SurfPt, (singleLayer cs deg).fmm p1 p2 0 0 = kernel cs deg p1.f p2.f * ‖cross3 p1.dx p1.dy‖ * ‖cross3 p2.dx p2.dy‖ := by
  refine ⟨contracts_scalar _ rfl rfl fun jr junk P M p1 p2 c => ?_, fun p1 p2 => rfl⟩
  simp only [singleLayer, Algebra.algebraMap_self, RingHom.id_apply]
  congr 1
  ring

/-! ## the potential -/

section
open Bembel.Mesh Bembel.FunctionEval Bembel.SuperSpace

theorem sum_lap {ι : Type} (s : Finset ι) (g : ι → V3 → ℝ) (l : ι → ℝ) (x : V3)
    (h : ∀ i ∈ s, ContDiffAt ℝ 2 (g i) x ∧ Laplacian.laplacian (g i) x = l i) :
    ContDiffAt ℝ 2 (fun x => ∑ i ∈ s, g i x) x ∧ Laplacian.laplacian (fun x => ∑ i ∈ s, g i x) x = ∑ i ∈ s, l i := by
  classical
  induction s using Finset.induction_on with
  | empty =>
    refine ⟨by simpa using contDiffAt_const, ?_⟩
    simp [InnerProductSpace.laplacian_const]
  | insert i s hi ih =>
    obtain ⟨a1, a2⟩ := h i (by simp)
    obtain ⟨b1, b2⟩ := ih fun j hj => h j (by simp [hj])
    simp only [sum_insert hi]
    refine ⟨a1.add b1, ?_⟩
    have := a1.laplacian_add b1
    refine (show _ = _ from this).trans ?_
    rw [a2, b2]

theorem shift_smooth (cs : List ℝ) (deg : Nat) (hd : 2 ≤ deg) (hl : deg * deg ≤ cs.length) (hsym : SymmetricUpTo (deg - 1) (coefficient cs))
    (x y : V3) (hx : OffCentres (x - y)) : ContDiffAt ℝ 2 (fun x => kernel cs deg x y) x := by
  have h := (evaluated_pde cs deg hd hl hsym (x - y) hx).1
  have e : (fun x => kernel cs deg x y) = fun x => (fun z => kernel cs deg z 0) (x - y) := by funext z; rw [kernel_shift]
  rw [e]
  exact h.comp x (contDiffAt_id.sub contDiffAt_const)

/-- C65: for coefficients for which the evaluated kernel is the documented one, for every vector of degrees of freedom and quadrature rule,
the Laplacian of the evaluated potential is the same constant, the quadrature of the density over the surface, at every point which does not
differ from a node on the surface by one of the 27 centres. -/
theorem C65_potential {V : Type} (near : V → V → Bool) (corner : Nat → Nat → V) (np M : Nat) (hP : 0 < np)
    (e0 : Evaluator ℝ) (space : Space ℝ) (ht : initElementTree near corner np M = some space.t)
    (hT : space.trans.rows = 1 * ((space.P + 1) * (space.P + 1) * space.t.nElements)) (f : EMat ℝ)
    (hf : f.rows = space.trans.cols) (hc : f.cols = 1) (junk : Nat → ℝ) (Q : Cubature ℝ)
    (cs : List ℝ) (deg : Nat) (hd : 2 ≤ deg) (hl : deg * deg ≤ cs.length) (hsym : SymmetricUpTo (deg - 1) (coefficient cs))
    (h0 : coefficient cs (deg - 1) (deg - 1 : Nat) = 0) :
    ∃ e els, initWith 1 e0 space f = some e ∧ elements space.t = some els ∧ ∃ U : V3 → ℝ,
      (∀ (x : V3) (S : Omp.Schedule space.t.nElements),
        Potential.evaluate junk (potential cs deg) e Q (fun _ : Fin 1 => x) S.sched = some (fun _ _ => U x)) ∧
      ∀ x : V3, (∀ a ∈ els, ∀ j < Q.size, OffCentres (x - (elementPoint space.t space.geo a (Q.xi j)).f)) →
        ContDiffAt ℝ 2 U x ∧ Laplacian.laplacian U x = surfaceQuad space.t space.geo Q els fun a p =>
          ‖cross3 p.dx p.dy‖ * discreteFunction space.trans f space.t.nElements space.P 0 (space.t.id a) (getH space.t a) p.xi := by
  obtain ⟨e, els, a1, a2, a3⟩ := C53_single_layer near corner np M hP e0 space ht hT f hf hc junk (kernel cs deg)
  refine ⟨e, els, a1, a2, _, fun x S => a3 Q 1 (fun _ => x) S, ?_⟩
  intro x hx
  simp only [surfaceQuad, Algebra.algebraMap_self, RingHom.id_apply]
  have e1 : ∀ g : Addr → ℝ, (els.map g).sum = ∑ i : Fin els.length, g (els.get i) := fun g => (Fin.sum_univ_fun_getElem els g).symm
  simp only [e1]
  refine sum_lap (univ : Finset (Fin els.length)) _ _ x fun i _ => sum_lap (range Q.size) _ _ x fun j hj => ?_
  have ho := hx _ (List.get_mem els i) j (mem_range.1 hj)
  have k1 := shift_smooth cs deg hd hl hsym _ _ ho
  have k2 := C65_pde cs deg hd hl hsym _ _ ho
  rw [h0] at k2
  simp only [mul_zero, zero_mul, add_zero] at k2
  set p := elementPoint space.t space.geo (els.get i) (Q.xi j) with hp
  set D := discreteFunction space.trans f space.t.nElements space.P 0 (space.t.id (els.get i)) (getH space.t (els.get i)) p.xi with hD
  have e2 : (fun x => getH space.t (els.get i) ^ 2 * Q.w j * (kernel cs deg x p.f * ‖cross3 p.dx p.dy‖ * D)) =
      fun x => (getH space.t (els.get i) ^ 2 * Q.w j * (‖cross3 p.dx p.dy‖ * D)) * kernel cs deg x p.f := by funext z; ring
  rw [e2]
  exact ⟨contDiffAt_const.mul k1, by rw [lap_const_mul _ _ x k1, k2, mul_one]⟩

end

/-! ## an exact solver exists -/

theorem exists_leastSquares (r c : Nat) (A : Nat → Nat → ℝ) (b : Nat → ℝ) : ∃ s, LeastSquares r c A b s := by
  let T : EuclideanSpace ℝ (Fin c) →ₗ[ℝ] EuclideanSpace ℝ (Fin r) := Matrix.toEuclideanLin (Matrix.of fun (i : Fin r) (j : Fin c) => A i j)
  let B : EuclideanSpace ℝ (Fin r) := WithLp.toLp 2 fun i => b i
  obtain ⟨s, hs⟩ := (LinearMap.range T).starProjection_apply_mem B
  have hT : ∀ v : EuclideanSpace ℝ (Fin c), ‖B - T v‖ ^ 2 = ∑ i : Fin r, (∑ j : Fin c, A i j * v j - b i) ^ 2 := by
    intro v
    rw [EuclideanSpace.norm_sq_eq]
    refine sum_congr rfl fun i _ => ?_
    rw [Real.norm_eq_abs, sq_abs]
    have : T v i = ∑ j : Fin c, A i j * v j := by
      simp [T, Matrix.toEuclideanLin_apply, Matrix.mulVec, dotProduct]
    rw [PiLp.sub_apply, this]
    ring
  have hle : ∀ v, ‖B - T s‖ ≤ ‖B - T v‖ := by
    intro v
    rw [hs, Submodule.starProjection_minimal]
    exact ciInf_le ⟨0, by rintro _ ⟨u, rfl⟩; exact norm_nonneg _⟩ (⟨T v, LinearMap.mem_range_self T v⟩ : LinearMap.range T)
  refine ⟨fun j => if h : j < c then s ⟨j, h⟩ else 0, fun v => ?_⟩
  have hh := hle (WithLp.toLp 2 fun j : Fin c => v j)
  have h2 := pow_le_pow_left₀ (norm_nonneg _) hh 2
  rw [hT, hT] at h2
  rw [← Fin.sum_univ_eq_sum_range (fun i => (_ : ℝ) ^ 2), ← Fin.sum_univ_eq_sum_range (fun i => (_ : ℝ) ^ 2)]
  refine le_trans (le_of_eq ?_) (h2.trans (le_of_eq ?_))
  · refine sum_congr rfl fun i _ => ?_
    rw [← Fin.sum_univ_eq_sum_range]
    simp
  · refine sum_congr rfl fun i _ => ?_
    rw [← Fin.sum_univ_eq_sum_range]

/-- The hypotheses of `C66_fit` can be met. -/
example : ∃ solve : Solver, ∀ r c A b, LeastSquares r c A b (solve r c A b) :=
  ⟨fun r c A b => (exists_leastSquares r c A b).choose, fun r c A b => (exists_leastSquares r c A b).choose_spec⟩

/-- Those of `C65_kernel_partial` and `C65_pde`: an expansion of degree two. -/
example : SymmetricUpTo 2 (coefficient [1, 0, 0, 0, 0, 0, 0, 0, 0]) ∧ OffCentres (!₂[1 / 2, 0, 0] - 0) := by
  refine ⟨fun n hn m m1 m2 => ?_, ?_⟩
  · interval_cases n <;> interval_cases m <;> rfl
  · rw [sub_zero]; exact off_of_half _ 0 (Or.inr (by simp))

end Bembel.Props
