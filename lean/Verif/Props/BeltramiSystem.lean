import Verif.Spec.BeltramiProblem
import Verif.Props.ReactionDiffusion
import Verif.Props.HypersingularKernel
/-! # C94: the Laplace-Beltrami equation on connected surfaces, stabilised by the mean values -/

namespace Bembel.Props
open Finset Mesh Spec Util SuperSpace MeasureTheory FunctionEval
open scoped ContDiff

namespace Beltrami
open Reaction

/-- Convergence of perturbed positive definite systems. -/
theorem rates (n : Nat) (A : Nat → Nat → ℝ) (pd : PositiveDefinite n A) (x b : Nat → ℝ) (hx : Solves n A x b) (E : Nat → ℝ) (E0 : ∀ κ, 0 ≤ E κ) :
    ∃ (N : Nat) (K : ℝ), 0 ≤ K ∧ ∀ i, N ≤ i → ∀ (S : Nat → Nat → ℝ) (w : Nat → ℝ),
      (∀ κ, ∀ c < n, ∀ d < n, |S c d - A c d| ≤ E κ / ((i : ℝ) + 1) ^ κ) → (∀ κ, ∀ c < n, |w c - b c| ≤ E κ / ((i : ℝ) + 1) ^ κ) →
      PositiveDefinite n S ∧ ∃ y, Solves n S y w ∧ (∀ z, Solves n S z w → ∀ c < n, z c = y c) ∧
        ∀ κ, ∀ c < n, |y c - x c| ≤ K * E κ / ((i : ℝ) + 1) ^ κ := by
  obtain ⟨ε0, he0, Ks, hKs, stab⟩ := Galerkin.stable n _ pd x _ hx
  obtain ⟨N, hN⟩ := exists_nat_gt (E 1 / ε0)
  refine ⟨N, Ks, hKs, fun i hi S w mt rh => ?_⟩
  have i0 : (0 : ℝ) < (i : ℝ) + 1 := by positivity
  have small : ∀ κ, min (E κ / ((i : ℝ) + 1) ^ κ) (E 1 / ((i : ℝ) + 1) ^ 1) ≤ ε0 := fun κ => by
    refine (min_le_right _ _).trans ?_
    rw [pow_one, div_le_iff₀ i0]
    rw [div_lt_iff₀ he0] at hN
    have : (N : ℝ) ≤ i := Nat.cast_le.2 hi
    nlinarith
  have st := fun κ => stab S _ (small κ) fun c hcn d hdn => le_min (mt κ c hcn d hdn) (mt 1 c hcn d hdn)
  obtain ⟨pd', uniq, -⟩ := st 0
  obtain ⟨y, y1, y2⟩ := uniq w
  refine ⟨pd', y, y1, y2, fun κ c hcn => ?_⟩
  refine ((st κ).2.2 _ y y1 (fun c hcn => le_min (rh κ c hcn) (rh 1 c hcn)) c hcn).trans ?_
  rw [mul_div_assoc]
  exact mul_le_mul_of_nonneg_left (min_le_left _ _) hKs

/-- The stabilised matrices converge. -/
theorem stabilised_rates (n : Nat) (A : Nat → Nat → ℝ) (m : Nat → ℝ) (γ : ℝ) (hγ : 0 < γ) (Cm Cv : Nat → ℝ) (Cv0 : ∀ κ, 0 ≤ Cv κ) :
    ∃ μ, 0 ≤ μ ∧ ∀ (i : Nat) (S : Nat → Nat → ℝ) (v : Nat → ℝ),
      (∀ κ, ∀ c < n, ∀ d < n, |S c d - A c d| ≤ Cm κ / ((i : ℝ) + 1) ^ κ) → (∀ κ, ∀ c < n, |v c - m c| ≤ Cv κ / ((i : ℝ) + 1) ^ κ) →
      ∀ κ, ∀ c < n, ∀ d < n, |stabilised γ S v c d - stabilised γ A m c d| ≤ (Cm κ + γ * (Cv κ * μ)) / ((i : ℝ) + 1) ^ κ := by
  let μ := ∑ c ∈ range n, |m c|
  have hμ : ∀ c < n, |m c| ≤ μ := fun c hcn => single_le_sum (f := fun c => |m c|) (fun _ _ => abs_nonneg _) (mem_range.2 hcn)
  have μ0 : 0 ≤ μ := sum_nonneg fun _ _ => abs_nonneg _
  refine ⟨2 * μ + Cv 0, by linarith [Cv0 0], fun i S v h1 h2 κ c hcn d hdn => ?_⟩
  have i1 : (0 : ℝ) < ((i : ℝ) + 1) ^ κ := by positivity
  have a1 := h1 κ c hcn d hdn
  have a2 := h2 κ c hcn
  have a3 := h2 κ d hdn
  have a4 := h2 0 d hdn
  rw [pow_zero, div_one] at a4
  have h5 : |v d| ≤ μ + Cv 0 := by
    have := abs_add_le (v d - m d) (m d)
    rw [sub_add_cancel] at this
    linarith [hμ d hdn]
  have h6 : |v c * v d - m c * m d| ≤ Cv κ / ((i : ℝ) + 1) ^ κ * (2 * μ + Cv 0) := by
    rw [show v c * v d - m c * m d = (v c - m c) * v d + m c * (v d - m d) by ring]
    refine (abs_add_le _ _).trans ?_
    rw [abs_mul, abs_mul]
    have q0 : 0 ≤ Cv κ / ((i : ℝ) + 1) ^ κ := div_nonneg (Cv0 κ) i1.le
    have q1 := mul_le_mul a2 h5 (abs_nonneg _) q0
    have q2 := mul_le_mul (hμ c hcn) a3 (abs_nonneg _) μ0
    nlinarith
  have e2 : stabilised γ S v c d - stabilised γ A m c d = (S c d - A c d) + γ * (v c * v d - m c * m d) := by
    unfold stabilised; ring
  rw [e2]
  refine (abs_add_le _ _).trans ?_
  rw [abs_mul, abs_of_pos hγ]
  have h7 := mul_le_mul_of_nonneg_left h6 hγ.le
  have h9 : (Cm κ + γ * (Cv κ * (2 * μ + Cv 0))) / ((i : ℝ) + 1) ^ κ = Cm κ / ((i : ℝ) + 1) ^ κ + γ * (Cv κ / ((i : ℝ) + 1) ^ κ * (2 * μ + Cv 0)) := by ring
  rw [h9]
  linarith

section
variable (near : V3 → V3 → Bool) (corner : Nat → Nat → V3) (P M : Nat) (hP : 0 < P) (geo : Nat → ℝ × ℝ → V3 × V3 × V3)
    (hreg : RegularPatches P geo) (hsm : SmoothPatches P geo) (t : Mesh.Tree ℝ) (ht : initElementTree near corner P M = some t) (p : Nat) (T : EMat ℝ)

/-- The function with the degrees of freedom `x` as a vector of the model. -/
def vec (x : Nat → ℝ) : EMat ℝ := ⟨T.cols, 1, fun c _ => x c⟩

theorem elementwise_iff (x : Nat → ℝ) : ElementwiseConstant P M ⟨t, p, geo, T⟩ (vec T x) ↔ ∀ a, IsNode P M a → ∀ s : ℝ × ℝ, 0 < s.1 → s.1 < 1 → 0 < s.2 → s.2 < 1 →
    discreteDx T (vec T x) t.nElements p 0 (t.id a) (getH t a) s = 0 ∧ discreteDy T (vec T x) t.nElements p 0 (t.id a) (getH t a) s = 0 := by
  refine forall_congr' fun a => forall_congr' fun _ => ?_
  have h0 : (1 : ℝ) / getH t a ≠ 0 := by unfold getH; positivity
  have h2 : (1 : ℝ) / getH t a ^ 2 ≠ 0 := by unfold getH; positivity
  have e := Hypersingular.constant_iff p (localCoeff T (vec T x) t.nElements p 0 (t.id a))
  simp only at e
  simp only [discreteDx, discreteDy, discreteFunction, Algebra.algebraMap_self, RingHom.id_apply, mul_eq_zero, h2, false_or]
  rw [← e]
  constructor
  · rintro ⟨c, hc⟩
    exact ⟨c / (1 / getH t a), fun s s1 s2 s3 s4 => by rw [eq_div_iff h0, mul_comm]; exact hc s s1 s2 s3 s4⟩
  · rintro ⟨c, hc⟩
    exact ⟨1 / getH t a * c, fun s s1 s2 s3 s4 => by rw [hc s s1 s2 s3 s4]⟩

/-- The partial derivatives vanish on the closed elements if they vanish inside. -/
theorem closed_zero (F : ℝ × ℝ → ℝ) (hF : Continuous F) (h : ∀ s : ℝ × ℝ, 0 < s.1 → s.1 < 1 → 0 < s.2 → s.2 < 1 → F s = 0) (s : ℝ × ℝ) (hs : ClosedSquare s) : F s = 0 := by
  have e : Set.EqOn F (fun _ => 0) (Set.Ioo (0 : ℝ) 1 ×ˢ Set.Ioo (0 : ℝ) 1) := fun s hs => h s hs.1.1 hs.1.2 hs.2.1 hs.2.2
  have := e.closure hF continuous_const
  rw [closure_prod_eq, closure_Ioo (by norm_num)] at this
  exact this ⟨⟨hs.1, hs.2.1⟩, hs.2.2.1, hs.2.2.2⟩

include hP hreg ht in
/-- Elementwise constant functions have the gradient zero. -/
theorem grad_zero (x : Nat → ℝ) (h : ElementwiseConstant P M ⟨t, p, geo, T⟩ (vec T x)) (a : Addr) (ha : IsNode P M a) (s : ℝ × ℝ) (hs : ClosedSquare s) :
    grad t p T x a (elementPoint t geo a s) = 0 := by
  have d := (elementwise_iff P M geo t p T x).1 h a ha
  have z1 := closed_zero _ (SurfaceRate.dx_smooth T (vec T x) t.nElements p 0 (t.id a) (getH t a)).continuous (fun s s1 s2 s3 s4 => (d s s1 s2 s3 s4).1) s hs
  have z2 := closed_zero _ (SurfaceRate.dy_smooth T (vec T x) t.nElements p 0 (t.id a) (getH t a)).continuous (fun s s1 s2 s3 s4 => (d s s1 s2 s3 s4).2) s hs
  have g1 := gradients_exist near corner P M hP geo hreg t ht p T x a s ha hs
  simp only [vec] at z1 z2
  simp only [z1, z2] at g1
  exact gradient_unique _ _ (node_regular near corner P M hP t ht geo hreg M le_rfl a ha s hs 1) g1 ⟨⟨0, 0, by simp⟩, by simp, by simp⟩

include hP hreg hsm ht in
/-- The Dirichlet integral vanishes exactly for the elementwise constant functions, and they are in the kernel of the form. -/
theorem dirichlet_zero (x : Nat → ℝ) : 0 ≤ surfaceIntegral t geo (leaves P M) (dens geo t p T 0 1 x x) ∧
    (surfaceIntegral t geo (leaves P M) (dens geo t p T 0 1 x x) = 0 → ElementwiseConstant P M ⟨t, p, geo, T⟩ (vec T x)) ∧
    (ElementwiseConstant P M ⟨t, p, geo, T⟩ (vec T x) → ∀ y, surfaceIntegral t geo (leaves P M) (dens geo t p T 0 1 x y) = 0) := by
  obtain ⟨h1, h2⟩ := integral_zero P M geo t (dens geo t p T 0 1 x x) (dens_cont near corner P M hP geo hreg hsm t ht p T 0 1 x x) fun a _ s _ => by
    unfold Reaction.dens
    rw [zero_mul, zero_add, one_mul]
    exact mul_nonneg (norm_nonneg _) real_inner_self_nonneg
  refine ⟨h1, fun h => (elementwise_iff P M geo t p T x).2 fun a ha s s1 s2 s3 s4 => ?_, fun h y => ?_⟩
  · have hs : ClosedSquare s := ⟨s1.le, s2.le, s3.le, s4.le⟩
    have := (mul_eq_zero.1 (h2 h a ha s hs)).resolve_left (norm_ne_zero_iff.2 (node_regular near corner P M hP t ht geo hreg M le_rfl a ha s hs 1))
    rw [zero_mul, zero_add, one_mul, inner_self_eq_zero] at this
    obtain ⟨-, g1, g2⟩ := gradients_exist near corner P M hP geo hreg t ht p T x a s ha hs
    rw [this, inner_zero_left] at g1 g2
    exact ⟨g1.symm, g2.symm⟩
  · rw [SurfaceRate.surfaceIntegral_congr t geo _ _ (fun _ _ => 0) fun a ha s hs => by
      unfold Reaction.dens
      rw [grad_zero near corner P M hP geo hreg t ht p T x h a (mem_leaves.1 ha) s hs, inner_zero_left, zero_mul, mul_zero, add_zero, mul_zero]]
    simp [surfaceIntegral]

/-- The mean values of the ansatz functions. -/
noncomputable def means : Nat → ℝ := galerkinLoad ⟨t, p, geo, T⟩ (leaves P M) fun _ => 1

include hP hsm ht in
/-- The right-hand side applied to a constant function. -/
theorem load_constant (g : V3 → ℝ) (hg : SmoothData P geo g) (x : Nat → ℝ) (k : ℝ) (h : EqualsConstant P M ⟨t, p, geo, T⟩ (vec T x) k) :
    ∑ c ∈ range T.cols, x c * galerkinLoad ⟨t, p, geo, T⟩ (leaves P M) g c = k * surfaceIntegral t geo (leaves P M) fun _ s => g s.f * ‖cross3 s.dx s.dy‖ := by
  simp only [Reaction.load_eq]
  have cw : Cont P M geo t fun _ s => g s.f * ‖cross3 s.dx s.dy‖ := fun a ha =>
    (data_cont near corner P M hP geo hsm t ht g hg a ha).mul (cross_contOn near corner P M hP geo hsm t ht a ha)
  have e := integral_add P M geo t k 0 _ _ cw cw
  rw [zero_mul, add_zero] at e
  rw [← integral_linear P M geo t _ x _ (load_cont near corner P M hP geo hsm t ht p T g hg), ← e]
  refine SurfaceRate.surfaceIntegral_congr t geo _ _ _ fun a ha s hs => ?_
  have v : valueAt ⟨t, p, geo, T⟩ x a s = k := by
    have hh : ∀ s : ℝ × ℝ, 0 < s.1 → s.1 < 1 → 0 < s.2 → s.2 < 1 → valueAt ⟨t, p, geo, T⟩ x a s - k = 0 := fun s s1 s2 s3 s4 =>
      sub_eq_zero.2 (h a (mem_leaves.1 ha) s s1 s2 s3 s4)
    exact sub_eq_zero.1 (closed_zero _ ((SurfaceRate.fun_smooth T (vec T x) t.nElements p 0 (t.id a) (getH t a)).continuous.sub continuous_const) hh s hs)
  rw [value_expand] at v
  simp only [loadDens, zero_mul, add_zero]
  rw [← v, sum_mul]
  exact sum_congr rfl fun c _ => by
    show x c * (_ * valueAt ⟨t, p, geo, T⟩ (unitDofs c) a s) = _
    ring

include hP hreg hsm ht in
/-- The area of the surface is positive. -/
theorem area_pos : 0 < surfaceIntegral t geo (leaves P M) fun _ s => (1 : ℝ) * ‖cross3 s.dx s.dy‖ := by
  obtain ⟨h1, h2⟩ := integral_zero P M geo t (fun _ s => (1 : ℝ) * ‖cross3 s.dx s.dy‖) (fun a ha =>
    continuousOn_const.mul (cross_contOn near corner P M hP geo hsm t ht a ha)) fun a _ s _ => by rw [one_mul]; exact norm_nonneg _
  refine lt_of_le_of_ne h1 fun h => ?_
  obtain ⟨l, l1, l2, -, -⟩ := pos_surj M 0 0 (by positivity) (by positivity)
  have hs : ClosedSquare (0, 0) := ⟨le_rfl, zero_le_one, le_rfl, zero_le_one⟩
  have ha : IsNode P M ⟨0, l⟩ := ⟨hP, l1, l2⟩
  have := h2 h.symm ⟨0, l⟩ ha (0, 0) hs
  rw [one_mul] at this
  exact node_regular near corner P M hP t ht geo hreg M le_rfl _ ha _ hs 1 (norm_eq_zero.1 this)

variable (hconst : ∀ f : EMat ℝ, ElementwiseConstant P M ⟨t, p, geo, T⟩ f → ∃ c, EqualsConstant P M ⟨t, p, geo, T⟩ f c)
    (hind : ∀ f : EMat ℝ, VanishesInside P M ⟨t, p, geo, T⟩ f → ∀ c < T.cols, f.at' c 0 = 0)

include hP hreg hsm ht hconst hind in
theorem stabilised_pos (γ : ℝ) (hγ : 0 < γ) : PositiveDefinite T.cols (stabilised γ (mat P M geo t p T 0 1) (means P M geo t p T)) := by
  rintro f ⟨c, hcT, hf⟩
  obtain ⟨h1, h2, -⟩ := dirichlet_zero near corner P M hP geo hreg hsm t ht p T f
  have e := form_expand near corner P M hP geo hreg hsm t ht p T 0 1 f f
  have split : ∑ c ∈ range T.cols, f c * ∑ d ∈ range T.cols, stabilised γ (mat P M geo t p T 0 1) (means P M geo t p T) c d * f d =
      surfaceIntegral t geo (leaves P M) (dens geo t p T 0 1 f f) + γ * (∑ d ∈ range T.cols, means P M geo t p T d * f d) ^ 2 := by
    rw [e, sq, sum_mul_sum, mul_sum, ← sum_add_distrib]
    refine sum_congr rfl fun c _ => ?_
    rw [mul_sum, mul_sum, mul_sum, ← sum_add_distrib]
    refine sum_congr rfl fun d _ => ?_
    simp only [stabilised, mat]
    ring
  rw [split]
  have s0 : 0 ≤ γ * (∑ d ∈ range T.cols, means P M geo t p T d * f d) ^ 2 := by positivity
  refine lt_of_le_of_ne (add_nonneg h1 s0) fun h => hf ?_
  have z2 : γ * (∑ d ∈ range T.cols, means P M geo t p T d * f d) ^ 2 = 0 := by linarith
  obtain ⟨k, hk⟩ := hconst _ (h2 (by linarith))
  have e3 := load_constant near corner P M hP geo hsm t ht p T (fun _ => 1) (fun _ _ _ _ => contDiffAt_const) f k hk
  have z3 : ∑ d ∈ range T.cols, means P M geo t p T d * f d = 0 := pow_eq_zero_iff two_ne_zero |>.1 ((mul_eq_zero.1 z2).resolve_left hγ.ne')
  rw [sum_congr rfl fun d _ => mul_comm (f d) _] at e3
  have k0 : k = 0 := (mul_eq_zero.1 (e3.symm.trans z3)).resolve_right (area_pos near corner P M hP geo hreg hsm t ht).ne'
  exact hind (vec T f) (fun a ha s s1 s2 s3 s4 => by rw [hk a ha s s1 s2 s3 s4, k0]) c hcT

include hP hreg hsm ht in
/-- If the integral of the data vanishes, the solutions of the stabilised system are the solutions with the mean value zero. -/
theorem unstabilised (e : Nat → ℝ) (he : EqualsConstant P M ⟨t, p, geo, T⟩ (vec T e) 1) (γ : ℝ) (hγ : 0 < γ) (g : V3 → ℝ) (hg : SmoothData P geo g)
    (h0 : surfaceIntegral t geo (leaves P M) (fun _ s => g s.f * ‖cross3 s.dx s.dy‖) = 0) (x : Nat → ℝ) :
    Solves T.cols (stabilised γ (mat P M geo t p T 0 1) (means P M geo t p T)) x (galerkinLoad ⟨t, p, geo, T⟩ (leaves P M) g) ↔
      Solves T.cols (mat P M geo t p T 0 1) x (galerkinLoad ⟨t, p, geo, T⟩ (leaves P M) g) ∧ ∑ c ∈ range T.cols, means P M geo t p T c * x c = 0 := by
  set A := mat P M geo t p T 0 1 with hA
  set m := means P M geo t p T with hm
  set b := galerkinLoad ⟨t, p, geo, T⟩ (leaves P M) g with hb
  have row : ∀ c, ∑ d ∈ range T.cols, stabilised γ A m c d * x d = ∑ d ∈ range T.cols, A c d * x d + γ * m c * ∑ d ∈ range T.cols, m d * x d := fun c => by
    rw [mul_sum, ← sum_add_distrib]
    exact sum_congr rfl fun d _ => by unfold stabilised; ring
  constructor
  · intro hx
    have key : ∑ c ∈ range T.cols, m c * x c = 0 := by
      have f1 := load_constant near corner P M hP geo hsm t ht p T g hg e 1 he
      rw [h0, ← hb, mul_zero] at f1
      have f2 : ∑ c ∈ range T.cols, e c * b c = ∑ c ∈ range T.cols, e c * ∑ d ∈ range T.cols, A c d * x d +
          γ * (∑ d ∈ range T.cols, e d * m d) * ∑ d ∈ range T.cols, m d * x d := by
        rw [mul_sum _ _ γ, sum_mul, ← sum_add_distrib]
        refine sum_congr rfl fun c hcT => ?_
        rw [← hx c (mem_range.1 hcT), row]
        ring
      have f3 := form_expand near corner P M hP geo hreg hsm t ht p T 0 1 e x
      rw [(dirichlet_zero near corner P M hP geo hreg hsm t ht p T e).2.2 (fun a ha => ⟨1, he a ha⟩) x] at f3
      have f5 := load_constant near corner P M hP geo hsm t ht p T (fun _ => 1) (fun _ _ _ _ => contDiffAt_const) e 1 he
      have f6 : ∑ c ∈ range T.cols, e c * ∑ d ∈ range T.cols, A c d * x d = 0 := f3.symm
      have f7 : ∑ c ∈ range T.cols, e c * m c = _ := f5
      rw [f1, f6, zero_add, f7, one_mul] at f2
      exact (mul_eq_zero.1 f2.symm).resolve_left (mul_pos hγ (area_pos near corner P M hP geo hreg hsm t ht)).ne'
    refine ⟨fun c hcT => ?_, key⟩
    rw [← hx c hcT, row, key]; ring
  · rintro ⟨h1, h2⟩ c hcT
    rw [row, h2, h1 c hcT]; ring

include hP hreg hsm ht hconst hind in
theorem computes (γ : ℝ) (hγ : 0 < γ) (es : EigenSolver) (hes : SolverCorrect es) (hT : T.rows = 1 * ((p + 1) * (p + 1) * t.nElements))
    (g : V3 → ℝ) (hg : SmoothData P geo g) (x : Nat → ℝ)
    (hx : Solves T.cols (stabilised γ (mat P M geo t p T 0 1) (means P M geo t p T)) x (galerkinLoad ⟨t, p, geo, T⟩ (leaves P M) g)) :
    ComputesBeltrami es P M ⟨t, p, geo, T⟩ g γ x := by
  set n := T.cols with hn
  have pd := stabilised_pos near corner P M hP geo hreg hsm t ht p T hconst hind γ hγ
  obtain ⟨Ck, Ck0, hCk⟩ := local_rate near corner P M geo t p T hP ht es _ _ (C90_laplace_beltrami es hes near corner P M hP ⟨t, p, geo, T⟩ ht hT hreg hsm
    (fun c => grad t p T (unitDofs c)) fun c _ a s ha hs => gradients_exist near corner P M hP geo hreg t ht p T (unitDofs c) a s ha hs)
  have load := ((C90_load es hes near corner P M hP ⟨t, p, geo, T⟩ ht hreg hsm).1 hT).1
  obtain ⟨Cv, Cv0, hCv⟩ := rhs_rate near corner P M geo t p T hP ht es _ _ (load (fun _ => 1) fun _ _ _ _ => contDiffAt_const)
  obtain ⟨Cw, Cw0, hCw⟩ := rhs_rate near corner P M geo t p T hP ht es _ _ (load g hg)
  obtain ⟨V, V0, hV⟩ := value_bound P M geo t p T
  obtain ⟨μ, μ0, hμ⟩ := stabilised_rates n (mat P M geo t p T 0 1) (means P M geo t p T) γ hγ Ck Cv Cv0
  have m0 : ∀ κ, 0 ≤ Ck κ + γ * (Cv κ * μ) := fun κ => add_nonneg (Ck0 κ) (mul_nonneg hγ.le (mul_nonneg (Cv0 κ) μ0))
  let E : Nat → ℝ := fun κ => Ck κ + γ * (Cv κ * μ) + Cw κ
  have E0 : ∀ κ, 0 ≤ E κ := fun κ => add_nonneg (m0 κ) (Cw0 κ)
  obtain ⟨N, Ks, hKs, conv⟩ := rates n _ pd x _ hx E E0
  refine ⟨N, fun κ => Ks * E κ * (1 + n * V), fun i hi o1 j1 o2 j2 o3 j3 a1 a2 b1 b2 c1 c2 junk1 junk2 junk3 => ?_⟩
  obtain ⟨K, B1, B2, B3, B4⟩ := hCk junk1 i o1 j1 a1 a2
  obtain ⟨v, D1, D2⟩ := hCv junk2 i o2 j2 b1 b2
  obtain ⟨w, W1, W2⟩ := hCw junk3 i o3 j3 c1 c2
  have i1 : ∀ κ, (0 : ℝ) < ((i : ℝ) + 1) ^ κ := fun κ => by positivity
  obtain ⟨pd', y, y1, y2, err⟩ := conv i hi (stabilised γ K.at' fun c => v.at' c 0) (fun c => w.at' c 0) (fun κ c hcn d hdn => by
      refine (hμ i K.at' (fun c => v.at' c 0) (fun κ c hcn d hdn => ?_) (fun κ c hcn => D2 κ c hcn) κ c hcn d hdn).trans
        (div_le_div_of_nonneg_right (by simp only [E]; linarith [Cw0 κ]) (i1 κ).le)
      have h2 := B4 κ c hcn d hdn
      rwa [show surfaceIntegral t geo (leaves P M) (fun a p_1 => ‖cross3 p_1.dx p_1.dy‖ * inner ℝ (grad t p T (unitDofs c) a p_1) (grad t p T (unitDofs d) a p_1)) =
        mat P M geo t p T 0 1 c d from congrArg _ (funext fun a => funext fun s => by
          unfold Reaction.dens
          rw [one_mul, zero_mul, zero_add])] at h2)
    fun κ c hcn => (W2 κ c hcn).trans (div_le_div_of_nonneg_right (by simp only [E]; linarith [m0 κ]) (i1 κ).le)
  refine ⟨K, v, w, B1, B2, B3, D1, W1, pd', y, y1, y2, fun κ => ?_⟩
  have k0 : 0 ≤ Ks * E κ / ((i : ℝ) + 1) ^ κ := div_nonneg (mul_nonneg hKs (E0 κ)) (i1 κ).le
  have nV : 0 ≤ (n : ℝ) * V := by positivity
  have e1 : Ks * E κ * (1 + n * V) / ((i : ℝ) + 1) ^ κ = Ks * E κ / ((i : ℝ) + 1) ^ κ * (1 + n * V) := by ring
  simp only [e1]
  refine ⟨fun c hcn => (err κ c hcn).trans (by nlinarith), fun a ha s hs => ?_⟩
  rw [value_expand geo t p T y, value_expand geo t p T x, ← sum_sub_distrib]
  refine (abs_sum_le_sum_abs _ _).trans ((sum_le_sum (g := fun _ => Ks * E κ / ((i : ℝ) + 1) ^ κ * V) fun c hcc => ?_).trans ?_)
  · rw [← sub_mul, abs_mul]
    exact mul_le_mul (err κ c (mem_range.1 hcc)) (hV a ha s hs c (mem_range.1 hcc)) (abs_nonneg _) k0
  · rw [sum_const, card_range, nsmul_eq_mul, ← hn]
    nlinarith

include hP hreg hsm ht hconst hind in
theorem system (e : Nat → ℝ) (he : EqualsConstant P M ⟨t, p, geo, T⟩ (vec T e) 1) (γ : ℝ) (hγ : 0 < γ) (es : EigenSolver) (hes : SolverCorrect es)
    (hT : T.rows = 1 * ((p + 1) * (p + 1) * t.nElements)) (g : V3 → ℝ) (hg : SmoothData P geo g) : SolvesBeltrami es P M ⟨t, p, geo, T⟩ g γ := by
  obtain ⟨t', k1, -, k3, -, -, k6, -⟩ := tree_facts (K := ℝ) near corner P M hP
  obtain rfl : t = t' := Option.some.inj (ht.symm.trans k1)
  refine ⟨leaves P M, elements_eq t P M hP k3 k6, ⟨_, gradients_exist near corner P M hP geo hreg t ht p T⟩, fun gr hgr => ?_⟩
  have eA : stiffness ⟨t, p, geo, T⟩ (leaves P M) gr = mat P M geo t p T 0 1 :=
    funext fun c => funext fun d => form_dens near corner P M hP geo hreg t ht p T 0 1 gr hgr _ _
  simp only [eA]
  have pd := stabilised_pos near corner P M hP geo hreg hsm t ht p T hconst hind γ hγ
  obtain ⟨x, x1, x2⟩ := WellPosed.solvable T.cols _ (fun f hf c hcn => by
    by_contra h
    have := pd f ⟨c, hcn, h⟩
    rw [sum_eq_zero fun c hc => by rw [hf c (mem_range.1 hc), mul_zero]] at this
    exact lt_irrefl 0 this) (galerkinLoad ⟨t, p, geo, T⟩ (leaves P M) g)
  refine ⟨fun u => ?_, pd, x, x1, x2, fun h0 => ?_, computes near corner P M hP geo hreg hsm t ht p T hconst hind γ hγ es hes hT g hg x x1⟩
  · rw [form_dens near corner P M hP geo hreg t ht p T 0 1 gr hgr]
    obtain ⟨h1, h2, h3⟩ := dirichlet_zero near corner P M hP geo hreg hsm t ht p T u
    exact ⟨h1, fun h => hconst _ (h2 h), fun ⟨k, hk⟩ => h3 (fun a ha => ⟨k, hk a ha⟩) u⟩
  · have un := unstabilised near corner P M hP geo hreg hsm t ht p T e he γ hγ g hg h0
    obtain ⟨u1, u2⟩ := (un x).1 x1
    have uq : ∀ y, Solves T.cols (mat P M geo t p T 0 1) y (galerkinLoad ⟨t, p, geo, T⟩ (leaves P M) g) →
      ∑ c ∈ range T.cols, means P M geo t p T c * y c = 0 → ∀ c < T.cols, y c = x c := fun y y1 y2 => x2 y ((un y).2 ⟨y1, y2⟩)
    refine ⟨u1, u2, uq, fun f => ?_⟩
    have q := quadratic T.cols (mat P M geo t p T 0 1) (fun c d => by unfold mat; rw [dens_symm]) x _ u1 f
    have en := energy_eq near corner P M hP geo hreg hsm t ht p T 0 1 gr hgr g hg
    rw [← en f, ← en x] at q
    have fe := form_expand near corner P M hP geo hreg hsm t ht p T 0 1 (fun c => f c - x c) fun c => f c - x c
    obtain ⟨h1, h2, h3⟩ := dirichlet_zero near corner P M hP geo hreg hsm t ht p T fun c => f c - x c
    have fe' : surfaceIntegral t geo (leaves P M) (dens geo t p T 0 1 (fun c => f c - x c) fun c => f c - x c) =
      reactionEnergy ⟨t, p, geo, T⟩ (leaves P M) gr 0 1 g f - reactionEnergy ⟨t, p, geo, T⟩ (leaves P M) gr 0 1 g x := fe.trans q.symm
    refine ⟨by linarith, fun he1 hm c hcn => ?_⟩
    have z : ∑ c ∈ range T.cols, (f c - x c) * ∑ d ∈ range T.cols, stabilised γ (mat P M geo t p T 0 1) (means P M geo t p T) c d * (f d - x d) = 0 := by
      have r : ∀ c, ∑ d ∈ range T.cols, stabilised γ (mat P M geo t p T 0 1) (means P M geo t p T) c d * (f d - x d) =
          ∑ d ∈ range T.cols, mat P M geo t p T 0 1 c d * (f d - x d) := fun c => by
        have zz : ∑ d ∈ range T.cols, means P M geo t p T d * (f d - x d) = 0 := by
          rw [sum_congr rfl fun d _ => mul_sub _ _ _, sum_sub_distrib]
          have hm' : ∑ d ∈ range T.cols, means P M geo t p T d * f d = 0 := hm
          rw [hm', u2, sub_zero]
        have : ∑ d ∈ range T.cols, stabilised γ (mat P M geo t p T 0 1) (means P M geo t p T) c d * (f d - x d) =
            ∑ d ∈ range T.cols, mat P M geo t p T 0 1 c d * (f d - x d) + γ * means P M geo t p T c * ∑ d ∈ range T.cols, means P M geo t p T d * (f d - x d) := by
          rw [mul_sum, ← sum_add_distrib]
          exact sum_congr rfl fun d _ => by unfold stabilised; ring
        rw [this, zz, mul_zero, add_zero]
      simp only [r]
      rw [← q, he1, sub_self]
    by_contra hne
    exact (pd (fun c => f c - x c) ⟨c, hcn, sub_ne_zero.2 hne⟩).ne' z

end
end Beltrami

/-- C94: the Laplace-Beltrami equation with continuous ansatz functions on a connected surface. -/
theorem C94_beltrami (near : V3 → V3 → Bool) (corner : Nat → Nat → V3) (P M : Nat) (hP : 0 < P) (geo : Nat → ℝ × ℝ → V3 × V3 × V3)
    (hreg : RegularPatches P geo) (hsm : SmoothPatches P geo) (hc : ConformingPatches near corner P) (ho : OrientedPatches corner P)
    (hconn : PatchesConnected corner P) (t : Mesh.Tree ℝ) (ht : initElementTree near corner P M = some t)
    (junkT : Nat → ℝ) (junkM : Nat → Nat → ℝ) (solve : Nat → (Nat → Nat → ℝ) → (Nat → ℝ) → Nat → ℝ) (hs : SolvesSystems solve) (p rep : Nat)
    (hp0 : 0 < p) (hp : p ≤ 4) (hrep : 1 ≤ rep) (hrp : rep ≤ p) (T : EMat ℝ) (hT : Ansatz.transformationCont junkT junkM solve t p M P rep = some T)
    (es : EigenSolver) (hes : SolverCorrect es) (g : V3 → ℝ) (hg : SmoothData P geo g) (γ : ℝ) (hγ : 0 < γ) :
    SolvesBeltrami es P M ⟨t, p, geo, T⟩ g γ := by
  obtain ⟨u, g1, g2, g3, -⟩ := tree_facts (K := ℝ) near corner P M hP
  obtain rfl : u = t := Option.some.inj (g1.symm.trans ht)
  have hT' : T.rows = 1 * ((p + 1) * (p + 1) * u.nElements) := by
    rw [WellPosed.cont_rows near corner junkT junkM solve hs p M P rep hP hp0 (by omega) hrep hrp hc ho u ht T hT, g3]; ring
  obtain ⟨e, -, -, e3⟩ := Hypersingular.constant_mem P M geo u near corner hP hc ho ht junkT junkM solve hs p rep hp0 hp hrep hrp T hT
  refine Beltrami.system near corner P M hP geo hreg hsm u ht p T
    (fun f h => Hypersingular.constant_of_elementwise P M geo u near corner hP hc ho hconn ht junkT junkM solve hs p rep hp0 (by omega) hrep hrp T hT f h)
    (fun f hf => ?_) (fun c => e.at' c 0) (fun a ha s s1 s2 s3 s4 => ?_) γ hγ es hes hT' g hg
  · refine C83_continuous near corner junkT junkM solve hs p M P rep hP hp0 hp hrep hrp hc ho u ht T hT f fun a ha s s1 s2 s3 s4 => ?_
    have := hf a ha s s1 s2 s3 s4
    simp only at this
    obtain ⟨-, l, -⟩ := g2 M le_rfl a (mem_leaves.2 ha)
    rw [WellPosed.ofReal_self, ← g3, ← show getH u a = 1 / 2 ^ M by unfold getH; rw [l, ha.2.1]]
    exact this
  · exact e3 a ha s s1 s2 s3 s4

end Bembel.Props
