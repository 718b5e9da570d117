import Verif.Spec.DirichletProblem
import Verif.Props.SingleLayer
import Verif.Props.SurfaceRate
import Verif.Props.Degrees
import Mathlib.Topology.Order.Compact
/-! # C91: the Dirichlet problem with the single layer ansatz -/

namespace Bembel.Props
open Finset Mesh H2 Spec Util Duffy SuperSpace MeasureTheory FunctionEval
open scoped ContDiff

namespace SingleLayer
open Bembel.Singular

/-- A rule with more points satisfies the bound of a rule with fewer points. -/
theorem rate_mono (C : ℝ) (hC : 0 ≤ C) (i j κ : Nat) (h : i ≤ j) : C / ((j : ℝ) + 1) ^ κ ≤ C / ((i : ℝ) + 1) ^ κ := by
  have i0 : (0 : ℝ) < (i : ℝ) + 1 := by positivity
  exact div_le_div_of_nonneg_left hC (by positivity) (pow_le_pow_left₀ i0.le (add_le_add_left (Nat.cast_le.2 h) 1) κ)

section
variable (near : V3 → V3 → Bool) (corner : Nat → Nat → V3) (P M : Nat) (hP : 0 < P) (hM : 1 ≤ M) (hc : ConformingPatches near corner P)
    (ho : OrientedPatches corner P) (geo : Nat → ℝ × ℝ → V3 × V3 × V3) (hreg : RegularPatches P geo) (hsm : SmoothSurface P geo)
    (hw : Watertight corner P fun p s => (geo p s).1) (hemb : Embedded corner P geo) (hcusp : NoCusps P geo)
    (t : Mesh.Tree ℝ) (ht : initElementTree near corner P M = some t)
include hsm in
theorem smooth_patches : SmoothPatches P geo := fun q hq => by
  obtain ⟨g, hg, eg⟩ := hsm q hq
  have hd : ∀ v : ℝ × ℝ, ContDiff ℝ ∞ fun x => fderiv ℝ g x v := fun v => (hg.fderiv_right (m := ∞) (by norm_cast)).clm_apply contDiff_const
  exact ⟨fun x => (g x, fderiv ℝ g x (1, 0), fderiv ℝ g x (0, 1)), fun x _ => (hg.prodMk ((hd _).prodMk (hd _))).contDiffAt, eg⟩

include hP hreg hsm ht

/-- The quadratures of the single layer potential converge, uniformly on compact sets off the surface. -/
theorem potential_rate (es : EigenSolver) (hes : SolverCorrect es) (p : Nat) (T f : EMat ℝ) (K : Set V3) (hK : IsCompact K) (hoff : OffSurface K P geo) (κ : Nat) :
    ∃ C, 0 ≤ C ∧ ∀ z ∈ K, ∀ order i, i ≤ order →
      let dens := fun (a : Addr) (s : SurfPt) => Kernel.laplace z s.f * ‖cross3 s.dx s.dy‖ * discreteFunction T f t.nElements p 0 (t.id a) (getH t a) s.xi
      |surfaceQuad t geo (gaussSquare es order i) (leaves P M) dens - surfaceIntegral t geo (leaves P M) dens| ≤ C / ((i : ℝ) + 1) ^ κ := by
  obtain ⟨t', k1, -, k3, -, -, k6, -⟩ := tree_facts (K := ℝ) near corner P M hP
  obtain rfl : t = t' := Option.some.inj (ht.symm.trans k1)
  refine SurfaceRate.surface_rate es hes near corner P M hP t ht geo (smooth_patches P geo hsm) K hK
    (fun z a s => Kernel.laplace z s.f * ‖cross3 s.dx s.dy‖ * discreteFunction T f t.nElements p 0 (t.id a) (getH t a) s.xi)
    (fun a ha x hx s hs => ?_) (leaves P M) (elements_eq t P M hP k3 k6) κ
  have hsq := node_square near corner P M hP t ht M le_rfl a ha s hs
  refine ((Interpol.laplace_smooth (SurfaceRate.xs _) (SurfaceRate.ps _) ?_).mul (SurfaceRate.areas _ (hreg _ hsq.1 _ hsq.2))).mul
    (SurfaceRate.fs _ (SurfaceRate.fun_smooth _ _ _ _ _ _ _))
  intro h
  exact hoff _ hsq.1 _ hsq.2 (by rw [← show x = _ from h]; exact hx)

/-- The quadratures of the single layer potential are bounded, uniformly on compact sets off the surface. -/
theorem potential_bound (es : EigenSolver) (hes : SolverCorrect es) (p : Nat) (T f : EMat ℝ) (K : Set V3) (hK : IsCompact K) (hoff : OffSurface K P geo) :
    ∃ D, 0 ≤ D ∧ ∀ z ∈ K, ∀ order i, i ≤ order →
      |surfaceQuad t geo (gaussSquare es order i) (leaves P M) fun a s =>
        Kernel.laplace z s.f * ‖cross3 s.dx s.dy‖ * discreteFunction T f t.nElements p 0 (t.id a) (getH t a) s.xi| ≤ D := by
  obtain ⟨C, C0, hC⟩ := potential_rate near corner P M hP geo hreg hsm t ht es hes p T f K hK hoff 0
  have cont : ContinuousOn (fun z => surfaceQuad t geo (gaussSquare es 0 0) (leaves P M) fun a s =>
        Kernel.laplace z s.f * ‖cross3 s.dx s.dy‖ * discreteFunction T f t.nElements p 0 (t.id a) (getH t a) s.xi) K := by
    unfold surfaceQuad
    refine continuousOn_list_sum _ fun a ha => ?_
    refine continuousOn_finsetSum _ fun j hj => ?_
    have hsq := node_square near corner P M hP t ht M le_rfl a (mem_leaves.1 ha) _ (Singular.gauss_closed es hes 0 0 le_rfl j (mem_range.1 hj))
    refine continuousOn_const.mul ((ContinuousOn.mul ?_ continuousOn_const).mul continuousOn_const)
    intro z hz
    refine ContinuousAt.continuousWithinAt ?_
    unfold Kernel.laplace
    refine ContinuousAt.div continuousAt_const (by fun_prop) (norm_ne_zero_iff.2 (sub_ne_zero.2 ?_))
    intro h
    refine hoff _ hsq.1 _ hsq.2 ?_
    have h' := h.symm
    unfold elementPoint at h'
    simp only at h'
    rw [h']
    exact hz
  obtain ⟨D, hD⟩ := hK.exists_bound_of_continuousOn cont
  refine ⟨max D 0 + 2 * C, by positivity, fun z hz order i hi => ?_⟩
  have h1 := hC z hz order i hi
  have h2 := hC z hz 0 0 le_rfl
  have h3 := hD z hz
  simp only [pow_zero, div_one] at h1 h2
  rw [Real.norm_eq_abs] at h3
  have := le_max_left D 0
  rw [abs_le] at *
  constructor <;> linarith [h1.1, h1.2, h2.1, h2.2, h3.1, h3.2]

include hM hc ho hw hemb hcusp

/-- The form is a positive definite symmetric bilinear form on linearly independent functions. -/
theorem pos_def (p : Nat) (T : EMat ℝ) (hind : ∀ f : EMat ℝ, VanishesInside P M ⟨t, p, geo, T⟩ f → ∀ c < T.cols, f.at' c 0 = 0) :
    PositiveDefinite T.cols fun c d => singleLayerForm ⟨t, p, geo, T⟩ (leaves P M) (unitVec T.cols c) (unitVec T.cols d) := by
  rintro f ⟨c, hcT, hf⟩
  have e := form_expand near corner P M hP hM hc ho geo hreg hsm hw hemb hcusp t ht p T ⟨T.cols, 1, fun c _ => f c⟩ ⟨T.cols, 1, fun c _ => f c⟩
  simp only at e
  obtain ⟨h1, h2⟩ := form_definite near corner P M hP hM hc ho geo hreg hsm hw hemb hcusp t ht p T ⟨T.cols, 1, fun c _ => f c⟩
  rw [e] at h1 h2
  exact lt_of_le_of_ne h1 fun h => hf (hind _ (h2 h.symm) c hcT)

/-- The solutions of perturbed Galerkin systems converge, and so do their computed potentials. -/
theorem converge (es : EigenSolver) (hes : SolverCorrect es) (p : Nat)
    (T : EMat ℝ) (hT : T.rows = 1 * ((p + 1) * (p + 1) * t.nElements))
    (hind : ∀ f : EMat ℝ, VanishesInside P M ⟨t, p, geo, T⟩ f → ∀ c < T.cols, f.at' c 0 = 0)
    (b : Nat → ℝ) (K : Set V3) (hK : IsCompact K) (hoff : OffSurface K P geo) :
    let A := galerkinMatrix ⟨t, p, geo, T⟩ (leaves P M)
    PositiveDefinite T.cols A ∧ ∃ x, Solves T.cols A x b ∧ (∀ y, Solves T.cols A y b → ∀ c < T.cols, y c = x c) ∧
    ∀ E : Nat → ℝ, (∀ κ, 0 ≤ E κ) → ∃ (N : Nat) (C : Nat → ℝ), ∀ i, N ≤ i → ∀ (S : Nat → Nat → ℝ) (v : Nat → ℝ),
      (∀ κ, ∀ c < T.cols, ∀ d < T.cols, |S c d - A c d| ≤ E κ / ((i : ℝ) + 1) ^ κ) → (∀ κ, ∀ c < T.cols, |v c - b c| ≤ E κ / ((i : ℝ) + 1) ^ κ) →
      ∀ order j, i ≤ j → j ≤ order → SolutionAccurate ⟨t, p, geo, T⟩ (leaves P M) K (gaussSquare es order j) x C i S v := by
  intro A
  obtain ⟨t', k1, -, k3, -, -, k6, -⟩ := tree_facts (K := ℝ) near corner P M hP
  obtain rfl : t = t' := Option.some.inj (ht.symm.trans k1)
  have hels := elements_eq t P M hP k3 k6
  have hA : PositiveDefinite T.cols A := pos_def near corner P M hP hM hc ho geo hreg hsm hw hemb hcusp t ht p T hind
  set n := T.cols with hn
  obtain ⟨x, x1, x2⟩ := WellPosed.solvable n A (fun f hf c hcn => by
    by_contra h
    have := hA f ⟨c, hcn, h⟩
    rw [sum_eq_zero fun c hc => by rw [hf c (mem_range.1 hc), mul_zero]] at this
    exact lt_irrefl 0 this) b
  refine ⟨hA, x, x1, x2, fun E E0 => ?_⟩
  obtain ⟨ε0, he0, Ks, hKs, stab⟩ := Galerkin.stable n A hA x b x1
  have hD := fun c => potential_bound near corner P M hP geo hreg hsm t ht es hes p T (unitVec n c) K hK hoff
  choose D D0 hDb using hD
  obtain ⟨N, hN⟩ := exists_nat_gt (E 1 / ε0)
  have hp := fun κ => potential_rate near corner P M hP geo hreg hsm t ht es hes p T ⟨n, 1, fun c _ => x c⟩ K hK hoff κ
  choose Cp Cp0 hCp using hp
  refine ⟨N, fun κ => Ks * E κ + (∑ c ∈ range n, Ks * E κ * D c) + Cp κ, fun i hi S v hS hv order j hij hjo => ?_⟩
  have i0 : (0 : ℝ) < (i : ℝ) + 1 := by positivity
  -- the smaller one of two error bounds
  have small : ∀ κ, min (E κ / ((i : ℝ) + 1) ^ κ) (E 1 / ((i : ℝ) + 1) ^ 1) ≤ ε0 := fun κ => by
    refine (min_le_right _ _).trans ?_
    rw [pow_one, div_le_iff₀ i0]
    rw [div_lt_iff₀ he0] at hN
    have : (N : ℝ) ≤ i := Nat.cast_le.2 hi
    nlinarith
  have st := fun κ => stab S _ (small κ) fun c hcn d hdn => le_min (hS κ c hcn d hdn) (hS 1 c hcn d hdn)
  obtain ⟨pd, uniq, -⟩ := st 0
  obtain ⟨y, y1, y2⟩ := uniq v
  have ey : ∀ κ, ∀ c < n, |y c - x c| ≤ Ks * E κ / ((i : ℝ) + 1) ^ κ := fun κ c hcn => by
    refine ((st κ).2.2 _ y y1 (fun c hcn => le_min (hv κ c hcn) (hv 1 c hcn)) c hcn).trans ?_
    rw [mul_div_assoc]
    exact mul_le_mul_of_nonneg_left (min_le_left _ _) hKs
  refine ⟨pd, y, y1, y2, fun κ => ?_⟩
  have w0 : (0 : ℝ) < ((i : ℝ) + 1) ^ κ := by positivity
  have s0 : 0 ≤ ∑ c ∈ range n, Ks * E κ * D c := sum_nonneg fun c _ => mul_nonneg (mul_nonneg hKs (E0 κ)) (D0 c)
  refine ⟨fun c hcn => (ey κ c hcn).trans (div_le_div_of_nonneg_right (by linarith [Cp0 κ]) w0.le), fun junk3 e0 => ?_⟩
  obtain ⟨e, els', e1, e2, e3⟩ := C53_single_layer near corner P M hP e0 ⟨t, p, geo, T⟩ ht hT ⟨n, 1, fun c _ => y c⟩ rfl rfl junk3 Kernel.laplace
  obtain rfl : leaves P M = els' := Option.some.inj (hels.symm.trans e2)
  refine ⟨e, e1, fun m z hz Sch => ⟨_, e3 _ m z Sch, fun k _ => ?_⟩⟩
  simp only [Algebra.algebraMap_self, RingHom.id_apply]
  set dens := fun (f : EMat ℝ) (a : Addr) (s : SurfPt) => Kernel.laplace (z k) s.f * ‖cross3 s.dx s.dy‖ *
    discreteFunction T f t.nElements p 0 (t.id a) (getH t a) s.xi with hdens
  have lin : ∀ f : Nat → ℝ, surfaceQuad t geo (gaussSquare es order j) (leaves P M) (dens ⟨n, 1, fun c _ => f c⟩) =
      ∑ c ∈ range n, f c * surfaceQuad t geo (gaussSquare es order j) (leaves P M) (dens (unitVec n c)) := fun f => by
    rw [surfaceQuad_sum]
    congr 1
    funext a s
    simp only [hdens]
    rw [← discreteFunction_expand T ⟨n, 1, fun c _ => f c⟩, mul_sum]
    exact sum_congr rfl fun c _ => by ring
  have h1 := hCp κ (z k) (hz k) order j hjo
  simp only at h1
  have h2 : |surfaceQuad t geo (gaussSquare es order j) (leaves P M) (dens ⟨n, 1, fun c _ => y c⟩) -
      surfaceQuad t geo (gaussSquare es order j) (leaves P M) (dens ⟨n, 1, fun c _ => x c⟩)| ≤ (∑ c ∈ range n, Ks * E κ * D c) / ((i : ℝ) + 1) ^ κ := by
    rw [lin, lin, ← sum_sub_distrib, sum_div]
    refine (abs_sum_le_sum_abs _ _).trans (sum_le_sum fun c hcn => ?_)
    rw [← sub_mul, abs_mul, mul_div_right_comm]
    exact mul_le_mul (ey κ c (mem_range.1 hcn)) (hDb c (z k) (hz k) order j hjo) (abs_nonneg _) (div_nonneg (mul_nonneg hKs (E0 κ)) w0.le)
  have h3 := h1.trans (rate_mono (Cp κ) (Cp0 κ) i j κ hij)
  have h4 : 0 ≤ Ks * E κ / ((i : ℝ) + 1) ^ κ := div_nonneg (mul_nonneg hKs (E0 κ)) w0.le
  rw [add_div, add_div]
  calc _ = |(surfaceQuad t geo (gaussSquare es order j) (leaves P M) (dens ⟨n, 1, fun c _ => y c⟩) -
          surfaceQuad t geo (gaussSquare es order j) (leaves P M) (dens ⟨n, 1, fun c _ => x c⟩)) +
        (surfaceQuad t geo (gaussSquare es order j) (leaves P M) (dens ⟨n, 1, fun c _ => x c⟩) -
          surfaceIntegral t geo (leaves P M) (dens ⟨n, 1, fun c _ => x c⟩))| := by rw [sub_add_sub_cancel]; rfl
    _ ≤ _ := abs_add_le _ _
    _ ≤ _ := by linarith

/-- The right-hand side converges. -/
theorem load_rate (es : EigenSolver) (hes : SolverCorrect es) (p : Nat) (T : EMat ℝ) (hT : T.rows = 1 * ((p + 1) * (p + 1) * t.nElements))
    (g : V3 → ℝ) (hg : SmoothData P geo g) : ∃ C : Nat → ℝ, (∀ κ, 0 ≤ C κ) ∧ ∀ (junk : Nat → ℝ) (i order j : Nat), i ≤ j → j ≤ order →
      ∃ v, LinearForm.compute junk (LinearForm.dirichlet g) ⟨t, p, geo, T⟩ (gaussSquare es order j) = some v ∧
        ∀ κ, ∀ c < T.cols, |v.at' c 0 - galerkinLoad ⟨t, p, geo, T⟩ (leaves P M) g c| ≤ C κ / ((i : ℝ) + 1) ^ κ := by
  obtain ⟨t', k1, -, k3, -, -, k6, -⟩ := tree_facts (K := ℝ) near corner P M hP
  obtain rfl : t = t' := Option.some.inj (ht.symm.trans k1)
  obtain ⟨els', l1, l2⟩ := ((C90_load es hes near corner P M hP ⟨t, p, geo, T⟩ ht hreg (smooth_patches P geo hsm)).1 hT).1 g hg
  obtain rfl : leaves P M = els' := Option.some.inj ((elements_eq t P M hP k3 k6).symm.trans l1)
  choose Cl hCl using l2
  simp only [Algebra.algebraMap_self, RingHom.id_apply] at hCl
  refine ⟨fun κ => max (Cl κ) 0, fun κ => le_max_right _ _, fun junk i order j hij hjo => ?_⟩
  obtain ⟨v, v1, -⟩ := hCl 0 order j hjo junk
  refine ⟨v, v1, fun κ c hcn => ?_⟩
  obtain ⟨w, w1, -, -, w4⟩ := hCl κ order j hjo junk
  obtain rfl : v = w := Option.some.inj (v1.symm.trans w1)
  exact (w4 c hcn).trans ((div_le_div_of_nonneg_right (le_max_left _ _) (by positivity)).trans (rate_mono _ (le_max_right _ _) i j κ hij))

theorem system (es : EigenSolver) (hes : SolverCorrect es) (junkB : Nat → V3) (B0 B : Addr → Ball V3)
    (hB : computeElementEnclosings t (fun p s => (geo p s).1) junkB B0 = some B) (p : Nat)
    (hdeg : ∀ a b, IsNode P M a → IsNode P M b → pairDegree Operator.laplaceSL.order p (compareElements t B a b).2 M < 50)
    (T : EMat ℝ) (hT : T.rows = 1 * ((p + 1) * (p + 1) * t.nElements))
    (hind : ∀ f : EMat ℝ, VanishesInside P M ⟨t, p, geo, T⟩ f → ∀ c < T.cols, f.at' c 0 = 0)
    (g : V3 → ℝ) (hg : SmoothData P geo g) (K : Set V3) (hK : IsCompact K) (hoff : OffSurface K P geo) :
    SolvesDirichlet es B P M ⟨t, p, geo, T⟩ g K := by
  obtain ⟨t', k1, -, k3, -, -, k6, -⟩ := tree_facts (K := ℝ) near corner P M hP
  obtain rfl : t = t' := Option.some.inj (ht.symm.trans k1)
  obtain ⟨hA, x, x1, x2, conv⟩ := converge near corner P M hP hM hc ho geo hreg hsm hw hemb hcusp t ht es hes p T hT hind
    (galerkinLoad ⟨t, p, geo, T⟩ (leaves P M) g) K hK hoff
  obtain ⟨Cm, Cm0, hCm⟩ := matrix_error near corner P M hP hM hc ho geo hreg hsm hw hemb hcusp t ht es hes junkB B0 B hB p hdeg T hT
  obtain ⟨Cl, Cl0, hCl⟩ := load_rate near corner P M hP hM hc ho geo hreg hsm hw hemb hcusp t ht es hes p T hT g hg
  obtain ⟨N, C, hN⟩ := conv (fun κ => max (Cm κ) (Cl κ)) fun κ => (Cm0 κ).trans (le_max_left _ _)
  refine ⟨leaves P M, elements_eq t P M hP k3 k6, hA, x, x1, x2, N, C, fun i hi GS hGS ffq hff jr jk junk1 junk2 order j hij hjo => ?_⟩
  obtain ⟨L, L1, L2⟩ := hCm i GS hGS ffq hff jr jk
  obtain ⟨v, v1, v2⟩ := hCl junk1 i order j hij hjo
  refine ⟨L, v, L1, v1, fun ws hws => ?_⟩
  obtain ⟨S, S1, S2, S3, S4⟩ := L2 ws hws junk2
  exact ⟨S, S1, S2, S3, hN i hi _ _ (fun κ c hcn d hdn => (S4 κ c hcn d hdn).trans (div_le_div_of_nonneg_right (le_max_left _ _) (by positivity)))
    (fun κ c hcn => (v2 κ c hcn).trans (div_le_div_of_nonneg_right (le_max_right _ _) (by positivity))) order j hij hjo⟩

/-- The exact integrals do not depend on the contents of the memory. -/
theorem exact_junk (p : Nat) (jr jk jr' jk' : Nat → ℝ) (a b : Addr) (ha : IsNode P M a) (hb : IsNode P M b) (k l : Nat) (hk : k < (p + 1) * (p + 1))
    (hl : l < (p + 1) * (p + 1)) : exactEntry t Operator.laplaceSL (map2surface t geo) p M jr jk a b k l =
      exactEntry t Operator.laplaceSL (map2surface t geo) p M jr' jk' a b k l := by
  obtain ⟨-, e1, f1⟩ := pair_facts near corner P M hP hM hc ho geo hreg hsm hw hemb hcusp t ht p jr jk a b ha hb k l hk hl
  obtain ⟨-, e2, f2⟩ := pair_facts near corner P M hP hM hc ho geo hreg hsm hw hemb hcusp t ht p jr' jk' a b ha hb k l hk hl
  rw [e1, e2]
  refine integral_congr_ae ?_
  filter_upwards [mem_ae] with z hz
  rw [f1 z hz, f2 z hz]

theorem compressed (es : EigenSolver) (hes : SolverCorrect es) (junkB : Nat → V3) (B0 B : Addr → Ball V3)
    (hB : computeElementEnclosings t (fun p s => (geo p s).1) junkB B0 = some B) (eta : ℝ) (heta : 0 ≤ eta) (minLevel : Int) (hm : 0 ≤ minLevel) (p : Nat)
    (hdeg : ∀ a b, IsNode P M a → IsNode P M b → pairDegree Operator.laplaceSL.order p (compareElements t B a b).2 M < 50)
    (T : EMat ℝ) (hT : T.rows = 1 * ((p + 1) * (p + 1) * t.nElements))
    (hind : ∀ f : EMat ℝ, VanishesInside P M ⟨t, p, geo, T⟩ f → ∀ c < T.cols, f.at' c 0 = 0)
    (g : V3 → ℝ) (hg : SmoothData P geo g) (K : Set V3) (hK : IsCompact K) (hoff : OffSurface K P geo) :
    SolvesCompressed es B P M eta minLevel ⟨t, p, geo, T⟩ g K := by
  obtain ⟨t', k1, -, k3, -, -, k6, -⟩ := tree_facts (K := ℝ) near corner P M hP
  obtain rfl : t = t' := Option.some.inj (ht.symm.trans k1)
  obtain ⟨hA, x, x1, x2, conv⟩ := converge near corner P M hP hM hc ho geo hreg hsm hw hemb hcusp t ht es hes p T hT hind
    (galerkinLoad ⟨t, p, geo, T⟩ (leaves P M) g) K hK hoff
  obtain ⟨Cl, Cl0, hCl⟩ := load_rate near corner P M hP hM hc ho geo hreg hsm hw hemb hcusp t ht es hes p T hT g hg
  obtain ⟨Cq, Cq0, hCq⟩ := pair_rate near corner P M hP hM hc ho geo hreg hsm hw hemb hcusp t ht es hes junkB B0 B hB p hdeg
  obtain ⟨Kt, Kt0, hKt⟩ := transform_error near corner P M hP hM hc ho geo hreg hsm hw hemb hcusp t ht p T hT
  obtain ⟨Cf, hCf⟩ := C88_surface es Operator.laplaceSL Nat.one_pos Nat.one_pos valueT _ (C42_operators.1 1) (C88_operators es hes 0).1 near corner P M hP hc
    geo hreg (smooth_patches P geo hsm) hw hemb t ht junkB B0 B hB eta heta minLevel hm p T hT (fun _ => 0) (fun _ => 0)
  let E : Nat → ℝ := fun κ => max (Kt * max (Cq κ) (Cf κ)) (Cl κ)
  have E0 : ∀ κ, 0 ≤ E κ := fun κ => (Cl0 κ).trans (le_max_right _ _)
  obtain ⟨N, C, hN⟩ := conv E E0
  refine ⟨leaves P M, elements_eq t P M hP k3 k6, hA, x, x1, x2, N, C,
    fun i hi GS hGS ffq hff ME m him hx ord hord hG jr jk junk1 order j hij hjo => ?_⟩
  obtain ⟨v, v1, v2⟩ := hCl junk1 i order j hij hjo
  obtain ⟨w, hw'⟩ := hCq i GS hGS ffq hff jr jk
  obtain ⟨A, a1, a2⟩ := hCf _ w (fun a b ha hb => (hw' a b ha hb).1) ME m (by omega) hx ord hord hG
  refine ⟨v, fun c d => ∑ r ∈ range T.rows, ∑ k ∈ range T.rows, T.at' r c * A r k * T.at' k d, v1, fun junk junkE junkT M0 ws hws => ?_, ?_⟩
  · obtain ⟨H, H1, H2⟩ := a2 junk junkE junkT M0 ws hws
    refine ⟨H, H1, fun junk Sch rhs res alpha r1 r2 r3 => ?_⟩
    obtain ⟨res', q1, q2, q3, q4⟩ := H2 junk Sch rhs res alpha r1 r2 r3
    refine ⟨res', q1, q2, q3, fun k hk c hc => ?_⟩
    rw [q4 k (by rw [r2]; exact hk) c hc]
    congr 2
    simp only [sum_mul]
    rw [sum_congr rfl fun r _ => sum_comm, sum_comm]
  · refine hN i hi _ _ (fun κ => ?_) (fun κ c hcn => (v2 κ c hcn).trans (div_le_div_of_nonneg_right (le_max_right _ _) (by positivity))) order j hij hjo
    have i0 : (0 : ℝ) < ((i : ℝ) + 1) ^ κ := by positivity
    have hi' : ((i : ℝ) + 1) ^ κ ≤ (m : ℝ) ^ κ := pow_le_pow_left₀ (by positivity) (by exact_mod_cast him) κ
    have bnd : ∀ a b, IsNode P M a → IsNode P M b → ∀ k < (p + 1) * (p + 1), ∀ l < (p + 1) * (p + 1),
        |A ((p + 1) * (p + 1) * t.id a + k) ((p + 1) * (p + 1) * t.id b + l) -
          exactEntry t Operator.laplaceSL (map2surface t geo) p M jr jk a b k l| ≤ max (Cq κ) (Cf κ) / ((i : ℝ) + 1) ^ κ := fun a b ha hb k hk l hl => by
      have q0 : 0 ≤ max (Cq κ) (Cf κ) := (Cq0 κ).trans (le_max_left _ _)
      have := a1 a b ha hb 0 Nat.one_pos 0 Nat.one_pos k hk l hl
      simp only [Nat.zero_mul, Nat.zero_add] at this
      rcases this with h | h
      · rw [h]
        exact ((hw' a b ha hb).2 κ k hk l hl).trans (div_le_div_of_nonneg_right (le_max_left _ _) i0.le)
      · rw [exact_junk near corner P M hP hM hc ho geo hreg hsm hw hemb hcusp t ht p jr jk (fun _ => 0) (fun _ => 0) a b ha hb k l hk hl]
        exact (h κ).trans ((div_le_div_of_nonneg_right (le_max_right _ _) (by positivity)).trans (div_le_div_of_nonneg_left q0 i0 hi'))
    intro c hcn d hdn
    refine (hKt jr jk A _ bnd c hcn d hdn).trans ?_
    rw [← mul_div_assoc]
    exact div_le_div_of_nonneg_right (le_max_left _ _) i0.le

end
end SingleLayer
open SingleLayer

section
variable (near : V3 → V3 → Bool) (corner : Nat → Nat → V3) (P M : Nat) (hP : 0 < P) (hM : 1 ≤ M) (hc : ConformingPatches near corner P)
    (ho : OrientedPatches corner P) (geo : Nat → ℝ × ℝ → V3 × V3 × V3) (hreg : RegularPatches P geo) (hsm : SmoothSurface P geo)
    (hw : Watertight corner P fun p s => (geo p s).1) (hemb : Embedded corner P geo) (hcusp : NoCusps P geo)
    (t : Mesh.Tree ℝ) (ht : initElementTree near corner P M = some t)
include hP hM hc ho hreg hsm hw hemb hcusp ht

/-- C91: the bilinear form of the single layer operator is symmetric, positive and definite, and bilinear in the degrees of freedom, for every
transformation matrix. -/
theorem C91_form (p : Nat) (T : EMat ℝ) : let space : Space ℝ := ⟨t, p, geo, T⟩
    ∃ els, elements t = some els ∧ ∀ f g : EMat ℝ, singleLayerForm space els f g = singleLayerForm space els g f ∧ 0 ≤ singleLayerForm space els f f ∧
      (singleLayerForm space els f f = 0 → VanishesInside P M space f) ∧
      singleLayerForm space els f g = ∑ c ∈ range T.cols, f.at' c 0 * ∑ d ∈ range T.cols,
        singleLayerForm space els (unitVec T.cols c) (unitVec T.cols d) * g.at' d 0 := by
  intro space
  obtain ⟨t', k1, -, k3, -, -, k6, -⟩ := tree_facts (K := ℝ) near corner P M hP
  obtain rfl : t = t' := Option.some.inj (ht.symm.trans k1)
  refine ⟨leaves P M, elements_eq t P M hP k3 k6, fun f g => ?_⟩
  obtain ⟨h1, h2⟩ := form_definite near corner P M hP hM hc ho geo hreg hsm hw hemb hcusp t ht p T f
  exact ⟨form_symm near corner P M hP hM hc ho geo hreg hsm hw hemb hcusp t ht p T f g, h1, h2,
    form_expand near corner P M hP hM hc ho geo hreg hsm hw hemb hcusp t ht p T f g⟩

/-- C91: the Dirichlet problem with discontinuous ansatz functions. -/
theorem C91_discontinuous (junkT : Nat → ℝ) (junkM : Nat → Nat → ℝ) (solve) (hs : SolvesSystems solve) (p rep : Nat) (hp : p ≤ 4) (hrep : 1 ≤ rep)
    (hl : (p + 2) * M < 100) (T : EMat ℝ) (hT : Ansatz.transformationDisc junkT junkM solve t p M P rep = some T)
    (es : EigenSolver) (hes : SolverCorrect es) (junkB : Nat → V3) (B0 B : Addr → Ball V3)
    (hB : computeElementEnclosings t (fun p s => (geo p s).1) junkB B0 = some B)
    (g : V3 → ℝ) (hg : SmoothData P geo g) (K : Set V3) (hK : IsCompact K) (hoff : OffSurface K P geo) :
    SolvesDirichlet es B P M ⟨t, p, geo, T⟩ g K ∧
    ∀ eta ≥ 0, ∀ minLevel ≥ 0, SolvesCompressed es B P M eta minLevel ⟨t, p, geo, T⟩ g K := by
  obtain ⟨A, T1, c1, c2, c3, c4, c5⟩ := C64_discontinuous near corner junkT junkM solve hs p M P rep hP (by omega) hrep t ht
  obtain rfl : T1 = T := Option.some.inj (c2.symm.trans hT)
  obtain ⟨A', h1, h2, -⟩ := disc_matrix near corner junkT junkM solve hs p M P rep hP (by omega) hrep t ht
  obtain rfl : A' = A := Option.some.inj (h1.symm.trans c1)
  obtain ⟨u, g1, g2, g3, -⟩ := tree_facts (K := ℝ) near corner P M hP
  obtain rfl : u = t := Option.some.inj (g1.symm.trans ht)
  have hT' : T1.rows = 1 * ((p + 1) * (p + 1) * u.nElements) := by rw [c3, h2, g3]; ring
  have deg : ∀ a b, IsNode P M a → IsNode P M b → pairDegree Operator.laplaceSL.order p (compareElements u B a b).2 M < 50 :=
    fun a b _ _ => (C57_no_assert (-1) p _ M (by omega) (by omega) hl).2
  have ind : ∀ f : EMat ℝ, VanishesInside P M ⟨u, p, geo, T1⟩ f → ∀ c < T1.cols, f.at' c 0 = 0 := fun f hf => by
    refine C83_discontinuous near corner junkT junkM solve hs p M P rep hP hp hrep u ht T1 hT f fun a ha s s1 s2 s3 s4 => ?_
    have := hf a ha s s1 s2 s3 s4
    simp only at this
    obtain ⟨-, e, -⟩ := g2 M le_rfl a (mem_leaves.2 ha)
    rw [WellPosed.ofReal_self, ← g3, ← show getH u a = 1 / 2 ^ M by unfold getH; rw [e, ha.2.1]]
    exact this
  exact ⟨system near corner P M hP hM hc ho geo hreg hsm hw hemb hcusp u ht es hes junkB B0 B hB p deg T1 hT' ind g hg K hK hoff,
    fun eta he minLevel hm => compressed near corner P M hP hM hc ho geo hreg hsm hw hemb hcusp u ht es hes junkB B0 B hB eta he minLevel hm p deg T1 hT' ind g hg K hK hoff⟩

/-- C91: the Dirichlet problem with continuous ansatz functions. -/
theorem C91_continuous (junkT : Nat → ℝ) (junkM : Nat → Nat → ℝ) (solve) (hs : SolvesSystems solve) (p rep : Nat) (hp0 : 0 < p) (hp : p ≤ 4)
    (hrep : 1 ≤ rep) (hrp : rep ≤ p) (hl : (p + 2) * M < 100) (T : EMat ℝ) (hT : Ansatz.transformationCont junkT junkM solve t p M P rep = some T)
    (es : EigenSolver) (hes : SolverCorrect es) (junkB : Nat → V3) (B0 B : Addr → Ball V3)
    (hB : computeElementEnclosings t (fun p s => (geo p s).1) junkB B0 = some B)
    (g : V3 → ℝ) (hg : SmoothData P geo g) (K : Set V3) (hK : IsCompact K) (hoff : OffSurface K P geo) :
    SolvesDirichlet es B P M ⟨t, p, geo, T⟩ g K ∧
    ∀ eta ≥ 0, ∀ minLevel ≥ 0, SolvesCompressed es B P M eta minLevel ⟨t, p, geo, T⟩ g K := by
  obtain ⟨u, g1, g2, g3, -⟩ := tree_facts (K := ℝ) near corner P M hP
  obtain rfl : u = t := Option.some.inj (g1.symm.trans ht)
  have hT' : T.rows = 1 * ((p + 1) * (p + 1) * u.nElements) := by rw [WellPosed.cont_rows near corner junkT junkM solve hs p M P rep hP hp0 (by omega) hrep hrp hc ho u ht T hT, g3]; ring
  have deg : ∀ a b, IsNode P M a → IsNode P M b → pairDegree Operator.laplaceSL.order p (compareElements u B a b).2 M < 50 :=
    fun a b _ _ => (C57_no_assert (-1) p _ M (by omega) (by omega) hl).2
  have ind : ∀ f : EMat ℝ, VanishesInside P M ⟨u, p, geo, T⟩ f → ∀ c < T.cols, f.at' c 0 = 0 := fun f hf => by
    refine C83_continuous near corner junkT junkM solve hs p M P rep hP hp0 hp hrep hrp hc ho u ht T hT f fun a ha s s1 s2 s3 s4 => ?_
    have := hf a ha s s1 s2 s3 s4
    simp only at this
    obtain ⟨-, e, -⟩ := g2 M le_rfl a (mem_leaves.2 ha)
    rw [WellPosed.ofReal_self, ← g3, ← show getH u a = 1 / 2 ^ M by unfold getH; rw [e, ha.2.1]]
    exact this
  exact ⟨system near corner P M hP hM hc ho geo hreg hsm hw hemb hcusp u ht es hes junkB B0 B hB p deg T hT' ind g hg K hK hoff,
    fun eta he minLevel hm => compressed near corner P M hP hM hc ho geo hreg hsm hw hemb hcusp u ht es hes junkB B0 B hB eta he minLevel hm p deg T hT' ind g hg K hK hoff⟩

end
open Smooth Bembel.Props.Singular in
/-- Hypotheses that are met: a flat and a curved patch, the mesh of level two, discontinuous bilinear ansatz functions, the data `g(y) = y 0` and a
segment of evaluation points below the surface; 50 ansatz functions. -/
example : ∃ (es : EigenSolver) (t : Mesh.Tree ℝ) (T : EMat ℝ) (B : Addr → Ball V3) (K : Set V3), SolverCorrect es ∧ t.nElements = 32 ∧
    (WithLp.toLp 2 ![0, 0, -1] : V3) ∈ K ∧ (WithLp.toLp 2 ![0, 0, -2] : V3) ∈ K ∧
    computeElementEnclosings t (fun p s => (sheet p s).1) (fun _ => 0) (fun _ => ⟨0, 0⟩) = some B ∧
    Ansatz.transformationDisc (fun _ => 0) (fun _ _ => 0) solver t 1 2 2 1 = some T ∧ T.cols = 50 ∧
    SolvesDirichlet es B 2 2 ⟨t, 1, sheet, T⟩ (fun y => y 0) K ∧ SolvesCompressed es B 2 2 1.6 1 ⟨t, 1, sheet, T⟩ (fun y => y 0) K := by
  obtain ⟨es, hes⟩ := solver_exists
  obtain ⟨t, h1, B, h2, -⟩ := C24_balls _ _ 2 2 (by norm_num) sheet_conforming (fun p s => (sheet p s).1) sheet_water (fun _ => 0) (fun _ => ⟨0, 0⟩)
  obtain ⟨A, T, hA, hT, -, c4, -⟩ := C64_discontinuous _ _ (fun _ => 0) (fun _ _ => 0) solver solver_solves 1 2 2 1 (by norm_num) (by norm_num) le_rfl t h1
  obtain ⟨A', h3, -, h4, -⟩ := disc_matrix _ _ (fun _ => 0) (fun _ _ => 0) solver solver_solves 1 2 2 1 (by norm_num) (by norm_num) le_rfl t h1
  obtain rfl : A' = A := Option.some.inj (h3.symm.trans hA)
  obtain ⟨u, g1, -, g3, -⟩ := tree_facts (K := ℝ) (fun u v : V3 => decide (u = v)) (fun p j => sheetVertex (sheetIndex p j)) 2 2 (by norm_num)
  obtain rfl : u = t := Option.some.inj (g1.symm.trans h1)
  have hK : IsCompact ((fun z : ℝ => (WithLp.toLp 2 ![0, 0, z] : V3)) '' Set.Icc (-2) (-1)) := by
    refine isCompact_Icc.image ?_
    refine (PiLp.continuous_toLp 2 _).comp (continuous_pi fun i => ?_)
    fin_cases i
    · exact continuous_const
    · exact continuous_const
    · exact continuous_id
  have hoff : OffSurface ((fun z : ℝ => (WithLp.toLp 2 ![0, 0, z] : V3)) '' Set.Icc (-2) (-1)) 2 sheet := by
    rintro p _ s hs ⟨z, hz, e⟩
    have e2 := congrFun (congrArg WithLp.ofLp e) 2
    have s1 := hs.1
    unfold sheet at e2
    split at e2 <;> simp at e2 <;> linarith [hz.2]
  refine ⟨es, u, T, B, (fun z : ℝ => (WithLp.toLp 2 ![0, 0, z] : V3)) '' Set.Icc (-2) (-1), hes, by rw [g3]; norm_num, ⟨-1, by norm_num, rfl⟩, ⟨-2, by norm_num, rfl⟩, h2, hT, by rw [c4, h4]; rfl, ?_⟩
  have := C91_discontinuous _ _ 2 2 (by norm_num) (by norm_num) sheet_conforming sheet_oriented sheet sheet_reg sheet_surface sheet_water sheet_embedded sheet_cusp
      u h1 _ _ solver solver_solves 1 1 (by norm_num) le_rfl (by norm_num) T hT es hes _ _ B h2 _
      (fun p _ s _ => contDiffAt_euclidean.1 contDiffAt_id 0) _ hK hoff
  exact ⟨this.1, this.2 1.6 (by norm_num) 1 (by norm_num)⟩

end Bembel.Props
