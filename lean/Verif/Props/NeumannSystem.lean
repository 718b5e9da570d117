import Verif.Spec.NeumannProblem
import Verif.Props.HypersingularKernel
import Verif.Props.SingleLayerSystem
import Mathlib.MeasureTheory.Integral.DominatedConvergence
/-! # C92: the Neumann problem with the hypersingular operator -/

namespace Bembel.Props
open Finset Mesh H2 Spec Util Duffy SuperSpace MeasureTheory FunctionEval
open scoped ContDiff

namespace Hypersingular
open Bembel.Singular SingleLayer

/-! ### Integrals over the square -/

/-- A function that is continuous on the closed square agrees there with a continuous function, which only takes values of it. -/
theorem clamp (F : ℝ × ℝ → ℝ) (hF : ContinuousOn F {x | ClosedSquare x}) :
    ∃ G : ℝ × ℝ → ℝ, Continuous G ∧ (∀ x, ClosedSquare x → G x = F x) ∧ ∀ x, ∃ y, ClosedSquare y ∧ G x = F y := by
  let q : ℝ × ℝ → ℝ × ℝ := fun x => (max 0 (min 1 x.1), max 0 (min 1 x.2))
  have hq : ∀ x, ClosedSquare (q x) := fun x => ⟨le_max_left _ _, max_le zero_le_one (min_le_left _ _), le_max_left _ _, max_le zero_le_one (min_le_left _ _)⟩
  have cq : Continuous q := by fun_prop
  refine ⟨fun x => F (q x), hF.comp_continuous cq hq, fun x hx => ?_, fun x => ⟨q x, hq x, rfl⟩⟩
  obtain ⟨h1, h2, h3, h4⟩ := hx
  have : q x = x := Prod.ext (by simp only [q]; rw [min_eq_right h2, max_eq_right h1]) (by simp only [q]; rw [min_eq_right h4, max_eq_right h3])
  simp only [this]

theorem inner_cont (G : ℝ × ℝ → ℝ) (hG : Continuous G) : Continuous fun x => ∫ y in (0 : ℝ)..1, G (x, y) :=
  intervalIntegral.continuous_parametric_intervalIntegral_of_continuous' (f := fun x y => G (x, y)) (by exact hG) 0 1

theorem square_congr (F G : ℝ × ℝ → ℝ) (h : ∀ x, ClosedSquare x → G x = F x) :
    ∫ x in (0 : ℝ)..1, ∫ y in (0 : ℝ)..1, G (x, y) = ∫ x in (0 : ℝ)..1, ∫ y in (0 : ℝ)..1, F (x, y) :=
  Interpol.int_congr _ _ fun x hx => Interpol.int_congr _ _ fun y hy => h _ ⟨hx.1, hx.2, hy.1, hy.2⟩

/-- Integrals over the square are linear. -/
theorem square_linear (n : Nat) (w : Nat → ℝ) (F : Nat → ℝ × ℝ → ℝ) (hF : ∀ c, ContinuousOn (F c) {x | ClosedSquare x}) :
    ∫ x in (0 : ℝ)..1, ∫ y in (0 : ℝ)..1, ∑ c ∈ range n, w c * F c (x, y) =
      ∑ c ∈ range n, w c * ∫ x in (0 : ℝ)..1, ∫ y in (0 : ℝ)..1, F c (x, y) := by
  choose G hG e _ using fun c => clamp (F c) (hF c)
  rw [← square_congr (fun x => ∑ c ∈ range n, w c * F c x) (fun x => ∑ c ∈ range n, w c * G c x) fun x hx => sum_congr rfl fun c _ => by rw [e c x hx]]
  rw [show (∑ c ∈ range n, w c * ∫ x in (0 : ℝ)..1, ∫ y in (0 : ℝ)..1, F c (x, y)) = ∑ c ∈ range n, w c * ∫ x in (0 : ℝ)..1, ∫ y in (0 : ℝ)..1, G c (x, y) from
    sum_congr rfl fun c _ => by rw [square_congr (F c) (G c) (e c)]]
  have inner : ∀ x, ∫ y in (0 : ℝ)..1, ∑ c ∈ range n, w c * G c (x, y) = ∑ c ∈ range n, w c * ∫ y in (0 : ℝ)..1, G c (x, y) := fun x => by
    rw [intervalIntegral.integral_finsetSum fun c _ => (Continuous.intervalIntegrable (by have := hG c; fun_prop) _ _)]
    exact sum_congr rfl fun c _ => intervalIntegral.integral_const_mul _ _
  simp only [inner]
  have ii : ∀ c ∈ range n, IntervalIntegrable (fun x => w c * ∫ y in (0 : ℝ)..1, G c (x, y)) volume 0 1 := fun c _ =>
    Continuous.intervalIntegrable (continuous_const.mul (inner_cont (G c) (hG c))) _ _
  rw [intervalIntegral.integral_finsetSum ii]
  exact sum_congr rfl fun c _ => intervalIntegral.integral_const_mul _ _

/-- The integral of a positive function is positive. -/
theorem square_pos (F : ℝ × ℝ → ℝ) (hF : ContinuousOn F {x | ClosedSquare x}) (h0 : ∀ x, ClosedSquare x → 0 < F x) :
    0 < ∫ x in (0 : ℝ)..1, ∫ y in (0 : ℝ)..1, F (x, y) := by
  obtain ⟨G, hG, e, v⟩ := clamp F hF
  have pos : ∀ x, 0 < G x := fun x => by
    obtain ⟨y, hy, h⟩ := v x
    rw [h]; exact h0 y hy
  rw [← square_congr F G e]
  refine intervalIntegral.intervalIntegral_pos_of_pos ((inner_cont G hG).intervalIntegrable _ _) (fun x => ?_) one_pos
  exact intervalIntegral.intervalIntegral_pos_of_pos (Continuous.intervalIntegrable (by fun_prop) _ _) (fun y => pos _) one_pos

section
variable (near : V3 → V3 → Bool) (corner : Nat → Nat → V3) (P M : Nat) (hP : 0 < P) (hM : 1 ≤ M) (hc : ConformingPatches near corner P)
    (ho : OrientedPatches corner P) (geo : Nat → ℝ × ℝ → V3 × V3 × V3) (hreg : RegularPatches P geo) (hsm : SmoothSurface P geo)
    (hw : Watertight corner P fun p s => (geo p s).1) (hemb : Embedded corner P geo) (hcusp : NoCusps P geo)
    (t : Mesh.Tree ℝ) (ht : initElementTree near corner P M = some t)

include hP ht in
/-- Surface integrals against functions of the ansatz space are linear in the degrees of freedom. -/
theorem load_linear (p : Nat) (T f : EMat ℝ) (w : SurfPt → ℝ)
    (hwc : ∀ a, IsNode P M a → ContinuousOn (fun x => w (elementPoint t geo a x)) {x | ClosedSquare x}) :
    surfaceIntegral t geo (leaves P M) (fun a s => w s * discreteFunction T f t.nElements p 0 (t.id a) (getH t a) s.xi) =
      ∑ c ∈ range T.cols, f.at' c 0 *
        surfaceIntegral t geo (leaves P M) fun a s => w s * discreteFunction T (unitVec T.cols c) t.nElements p 0 (t.id a) (getH t a) s.xi := by
  unfold surfaceIntegral
  simp only [← List.sum_toFinset _ (leaves_nodup P M), mul_sum]
  rw [sum_comm]
  refine sum_congr rfl fun a ha => ?_
  rw [List.mem_toFinset, mem_leaves] at ha
  have := square_linear T.cols (fun c => f.at' c 0) (fun c x => w (elementPoint t geo a x) *
    discreteFunction T (unitVec T.cols c) t.nElements p 0 (t.id a) (getH t a) (elementPoint t geo a x).xi) fun c =>
      (hwc a ha).mul (SurfaceRate.fun_smooth T (unitVec T.cols c) t.nElements p 0 (t.id a) (getH t a)).continuous.continuousOn
  rw [sum_congr rfl fun c _ => mul_left_comm _ _ _, ← mul_sum, ← this]
  congr 1
  refine Interpol.int_congr _ _ fun x _ => Interpol.int_congr _ _ fun y _ => ?_
  rw [← discreteFunction_expand T f, mul_sum]
  exact sum_congr rfl fun c _ => by ring

include hP ht in
theorem integral_congr' (F G : Addr → SurfPt → ℝ) (h : ∀ a, IsNode P M a → ∀ x, ClosedSquare x → F a (elementPoint t geo a x) = G a (elementPoint t geo a x)) :
    surfaceIntegral t geo (leaves P M) F = surfaceIntegral t geo (leaves P M) G := by
  unfold surfaceIntegral
  refine congrArg List.sum (List.map_congr_left fun a ha => ?_)
  rw [mem_leaves] at ha
  exact congrArg _ (square_congr (fun x => G a (elementPoint t geo a x)) (fun x => F a (elementPoint t geo a x)) fun x hx => h a ha x hx)

/-- A constant function is constant on the closed elements. -/
theorem constant_closed (p : Nat) (T f : EMat ℝ) (c : ℝ) (h : EqualsConstant P M ⟨t, p, geo, T⟩ f c) (a : Addr) (ha : IsNode P M a) (s : ℝ × ℝ) (hs : ClosedSquare s) :
    discreteFunction T f t.nElements p 0 (t.id a) (getH t a) s = c := by
  have e : Set.EqOn (discreteFunction T f t.nElements p 0 (t.id a) (getH t a)) (fun _ => c) (Set.Ioo (0 : ℝ) 1 ×ˢ Set.Ioo (0 : ℝ) 1) :=
    fun s hs => h a ha s hs.1.1 hs.1.2 hs.2.1 hs.2.2
  have := e.closure (SurfaceRate.fun_smooth T f t.nElements p 0 (t.id a) (getH t a)).continuous continuous_const
  rw [closure_prod_eq, closure_Ioo (by norm_num)] at this
  exact this ⟨⟨hs.1, hs.2.1⟩, hs.2.2.1, hs.2.2.2⟩

include hP hsm ht in
/-- The surface element and the fluxes are continuous. -/
theorem weights_cont (a : Addr) (ha : IsNode P M a) :
    ContinuousOn (fun x => ‖cross3 (elementPoint t geo a x).dx (elementPoint t geo a x).dy‖) {x | ClosedSquare x} ∧
    ∀ g : V3 → Fin 3 → ℝ, SmoothData P geo g → ContinuousOn (fun x => ∑ k, g (elementPoint t geo a x).f k *
      cross3 (elementPoint t geo a x).dx (elementPoint t geo a x).dy k) {x | ClosedSquare x} := by
  obtain ⟨G, g1, g2⟩ := surface_ext P geo hsm
  have pe := fun x hx => point_eq near corner P M hP geo t ht G g2 a ha x hx
  have cc := cross_cont (tangent_cont t G g1 (1, 0) a) (tangent_cont t G g1 (0, 1) a)
  refine ⟨ContinuousOn.congr cc.norm.continuousOn fun x hx => by rw [pe x hx], fun g hg => ?_⟩
  refine ContinuousOn.congr (f := fun x => ∑ k, g (pos t G a x) k * cross3 (tangent t G (1, 0) a x) (tangent t G (0, 1) a x) k) ?_ fun x hx => by rw [pe x hx]
  refine continuousOn_finsetSum _ fun k _ => ContinuousOn.mul ?_ ?_
  · intro x hx
    obtain ⟨n1, n2⟩ := node_square near corner P M hP t ht M le_rfl a ha x hx
    have e : pos t G a x = (geo (t.patch a) ((t.llc a).1 + getH t a * x.1, (t.llc a).2 + getH t a * x.2)).1 := by
      rw [g2 _ n1 _ n2]; rfl
    have c1 : ContinuousAt (fun y => g y k) (pos t G a x) := by
      rw [e]; exact (contDiffAt_pi.1 (hg _ n1 _ n2) k).continuousAt
    exact (ContinuousAt.comp (f := pos t G a) c1 (pos_cont t G g1 a).continuousAt).continuousWithinAt
  · have : Continuous fun y : V3 => y k := by fun_prop
    exact (this.comp cc).continuousOn

include hP hreg hsm ht in
/-- The area of the surface is positive. -/
theorem area_pos : 0 < surfaceIntegral t geo (leaves P M) fun _ s => ‖cross3 s.dx s.dy‖ := by
  unfold surfaceIntegral
  rw [← List.sum_toFinset _ (leaves_nodup P M)]
  obtain ⟨l, l1, l2, -, -⟩ := pos_surj M 0 0 (by positivity) (by positivity)
  have pos : ∀ a ∈ (leaves P M).toFinset, 0 < algebraMap ℝ ℝ (getH t a ^ 2) * ∫ x in (0 : ℝ)..1, ∫ y in (0 : ℝ)..1,
      ‖cross3 (elementPoint t geo a (x, y)).dx (elementPoint t geo a (x, y)).dy‖ := fun a ha => by
    rw [List.mem_toFinset, mem_leaves] at ha
    refine mul_pos ?_ (square_pos (fun x => ‖cross3 (elementPoint t geo a x).dx (elementPoint t geo a x).dy‖)
      (weights_cont near corner P M hP geo hsm t ht a ha).1 fun x hx => ?_)
    · have : 0 < getH t a := by unfold getH; positivity
      exact pow_pos this 2
    · exact norm_pos_iff.2 (node_regular near corner P M hP t ht geo hreg M le_rfl a ha _ hx 1)
  exact sum_pos pos ⟨(0, l), List.mem_toFinset.2 (mem_leaves.2 ⟨hP, l1, l2⟩)⟩

section
variable (p : Nat) (T : EMat ℝ)

include hP ht in
/-- The product of the mean values of the ansatz functions with the degrees of freedom is the mean value. -/
theorem mean_eq (hsm : SmoothSurface P geo) (f : EMat ℝ) (c : ℝ) (h : EqualsConstant P M ⟨t, p, geo, T⟩ f c) :
    ∑ d ∈ range T.cols, galerkinLoad ⟨t, p, geo, T⟩ (leaves P M) (fun _ => 1) d * f.at' d 0 =
      c * surfaceIntegral t geo (leaves P M) fun _ s => ‖cross3 s.dx s.dy‖ := by
  have e := load_linear near corner P M hP geo t ht p T f (fun s => (1 : ℝ) * ‖cross3 s.dx s.dy‖) fun a ha => by
    simp only [one_mul]; exact (weights_cont near corner P M hP geo hsm t ht a ha).1
  unfold galerkinLoad
  rw [sum_congr rfl fun d _ => mul_comm _ _]
  refine e.symm.trans ?_
  have e2 := load_linear near corner P M hP geo t ht p T f (fun s => ‖cross3 s.dx s.dy‖) fun a ha => (weights_cont near corner P M hP geo hsm t ht a ha).1
  rw [integral_congr' near corner P M hP geo t ht _ (fun _ s => c * ‖cross3 s.dx s.dy‖) fun a ha x hx => by
    rw [show (elementPoint t geo a x).xi = x from rfl, constant_closed P M geo t p T f c h a ha x hx]; ring]
  unfold surfaceIntegral
  rw [← List.sum_map_mul_left]
  refine congrArg List.sum (List.map_congr_left fun a _ => ?_)
  simp only [intervalIntegral.integral_const_mul]
  ring

include hP ht in
/-- The product of the Neumann data with the degrees of freedom of the constant function is the total flux. -/
theorem flux_eq (hsm : SmoothSurface P geo) (g : V3 → Fin 3 → ℝ) (hg : SmoothData P geo g) (e : EMat ℝ) (h : EqualsConstant P M ⟨t, p, geo, T⟩ e 1) :
    ∑ d ∈ range T.cols, e.at' d 0 * neumannLoad ⟨t, p, geo, T⟩ (leaves P M) g d =
      surfaceIntegral t geo (leaves P M) fun _ s => ∑ k, g s.f k * cross3 s.dx s.dy k := by
  have l := load_linear near corner P M hP geo t ht p T e (fun s => ∑ k, g s.f k * cross3 s.dx s.dy k) fun a ha => by
    exact (weights_cont near corner P M hP geo hsm t ht a ha).2 g hg
  unfold neumannLoad
  refine l.symm.trans (integral_congr' near corner P M hP geo t ht _ _ fun a ha x hx => ?_)
  rw [show (elementPoint t geo a x).xi = x from rfl, constant_closed P M geo t p T e 1 h a ha x hx, mul_one]

include hP hM hc ho hreg hsm hw hemb hcusp ht

theorem expand (f g : EMat ℝ) : hypersingularForm ⟨t, p, geo, T⟩ (leaves P M) f g = ∑ c ∈ range T.cols, f.at' c 0 * ∑ d ∈ range T.cols,
    hypersingularMatrix ⟨t, p, geo, T⟩ (leaves P M) c d * g.at' d 0 :=
  form_expand_of P M geo t Operator.laplaceHyp (fun f g => hypersingularForm ⟨t, p, geo, T⟩ (leaves P M) f g) p T
    (fun jr jk f g => form_entries near corner P M hP hM hc ho geo hreg hsm hw hemb hcusp t ht p jr jk T f g) f g

variable (hconst : ∀ f, ElementwiseConstant P M ⟨t, p, geo, T⟩ f → ∃ c, EqualsConstant P M ⟨t, p, geo, T⟩ f c)
    (hind : ∀ f : EMat ℝ, VanishesInside P M ⟨t, p, geo, T⟩ f → ∀ c < T.cols, f.at' c 0 = 0)

include hconst hind in
/-- The stabilised matrix is positive definite. -/
theorem stabilised_pos (α : ℝ) (hα : 0 < α) :
    PositiveDefinite T.cols (stabilised α (hypersingularMatrix ⟨t, p, geo, T⟩ (leaves P M)) (galerkinLoad ⟨t, p, geo, T⟩ (leaves P M) fun _ => 1)) := by
  set m := galerkinLoad ⟨t, p, geo, T⟩ (leaves P M) fun _ => 1 with hm
  rintro f ⟨c, hcT, hf⟩
  set F : EMat ℝ := ⟨T.cols, 1, fun c _ => f c⟩ with hF
  have e := expand near corner P M hP hM hc ho geo hreg hsm hw hemb hcusp t ht p T F F
  obtain ⟨h1, h2, -⟩ := form_definite near corner P M hP hM hc ho geo hreg hsm hw hemb hcusp t ht p T F
  have split : ∑ c ∈ range T.cols, f c * ∑ d ∈ range T.cols, stabilised α (hypersingularMatrix ⟨t, p, geo, T⟩ (leaves P M)) m c d * f d =
      hypersingularForm ⟨t, p, geo, T⟩ (leaves P M) F F + α * (∑ d ∈ range T.cols, m d * f d) ^ 2 := by
    rw [e, sq, sum_mul_sum, mul_sum, ← sum_add_distrib]
    refine sum_congr rfl fun c _ => ?_
    rw [mul_sum, mul_sum, mul_sum, ← sum_add_distrib]
    refine sum_congr rfl fun d _ => ?_
    simp only [stabilised, hF]
    ring
  rw [split]
  have s0 : 0 ≤ α * (∑ d ∈ range T.cols, m d * f d) ^ 2 := by positivity
  refine lt_of_le_of_ne (add_nonneg h1 s0) fun h => hf ?_
  have z1 : hypersingularForm ⟨t, p, geo, T⟩ (leaves P M) F F = 0 := by linarith
  have z2 : α * (∑ d ∈ range T.cols, m d * f d) ^ 2 = 0 := by linarith
  obtain ⟨k, hk⟩ := hconst F (h2.1 z1)
  have e3 := mean_eq near corner P M hP geo t ht p T hsm F k hk
  have z3 : ∑ d ∈ range T.cols, m d * f d = 0 := by
    rcases mul_eq_zero.1 z2 with h | h
    · exact absurd h hα.ne'
    · exact pow_eq_zero_iff two_ne_zero |>.1 h
  simp only [hF] at e3
  rw [← hm, z3] at e3
  have k0 : k = 0 := by
    rcases mul_eq_zero.1 e3.symm with h | h
    · exact h
    · exact absurd h (area_pos near corner P M hP geo hreg hsm t ht).ne'
  exact hind F (fun a ha s s1 s2 s3 s4 => by rw [hk a ha s s1 s2 s3 s4, k0]) c hcT

/-- If the total flux vanishes, the solution of the stabilised system solves the system without the stabilisation and has the mean value zero. -/
theorem unstabilised (e : EMat ℝ) (he : EqualsConstant P M ⟨t, p, geo, T⟩ e 1) (α : ℝ) (hα : 0 < α) (g : V3 → Fin 3 → ℝ) (hg : SmoothData P geo g)
    (h0 : surfaceIntegral t geo (leaves P M) (fun _ s => ∑ k, g s.f k * cross3 s.dx s.dy k) = 0) (x : Nat → ℝ) :
    Solves T.cols (stabilised α (hypersingularMatrix ⟨t, p, geo, T⟩ (leaves P M)) (galerkinLoad ⟨t, p, geo, T⟩ (leaves P M) fun _ => 1)) x
        (neumannLoad ⟨t, p, geo, T⟩ (leaves P M) g) ↔
      Solves T.cols (hypersingularMatrix ⟨t, p, geo, T⟩ (leaves P M)) x (neumannLoad ⟨t, p, geo, T⟩ (leaves P M) g) ∧
      ∑ c ∈ range T.cols, galerkinLoad ⟨t, p, geo, T⟩ (leaves P M) (fun _ => 1) c * x c = 0 := by
  set A := hypersingularMatrix ⟨t, p, geo, T⟩ (leaves P M) with hA
  set m := galerkinLoad ⟨t, p, geo, T⟩ (leaves P M) fun _ => 1 with hm
  set b := neumannLoad ⟨t, p, geo, T⟩ (leaves P M) g with hb
  have row : ∀ c, ∑ d ∈ range T.cols, stabilised α A m c d * x d = ∑ d ∈ range T.cols, A c d * x d + α * m c * ∑ d ∈ range T.cols, m d * x d := fun c => by
    rw [mul_sum, ← sum_add_distrib]
    exact sum_congr rfl fun d _ => by unfold stabilised; ring
  constructor
  · intro hx
    have key : ∑ c ∈ range T.cols, m c * x c = 0 := by
      have f1 := flux_eq near corner P M hP geo t ht p T hsm g hg e he
      rw [h0, ← hb] at f1
      have f2 : ∑ c ∈ range T.cols, e.at' c 0 * b c = ∑ c ∈ range T.cols, e.at' c 0 * ∑ d ∈ range T.cols, A c d * x d +
          α * (∑ d ∈ range T.cols, m d * e.at' d 0) * ∑ d ∈ range T.cols, m d * x d := by
        rw [mul_sum _ _ α, sum_mul, ← sum_add_distrib]
        refine sum_congr rfl fun c hcT => ?_
        rw [← hx c (mem_range.1 hcT), row]
        ring
      have f3 := expand near corner P M hP hM hc ho geo hreg hsm hw hemb hcusp t ht p T e ⟨T.cols, 1, fun c _ => x c⟩
      obtain ⟨-, -, f4⟩ := form_definite near corner P M hP hM hc ho geo hreg hsm hw hemb hcusp t ht p T e
      rw [f4 fun a ha => ⟨1, he a ha⟩] at f3
      simp only at f3
      have f5 := mean_eq near corner P M hP geo t ht p T hsm e 1 he
      have ar := area_pos near corner P M hP geo hreg hsm t ht
      rw [← hm, one_mul] at f5
      rw [f1, ← f3, zero_add, f5] at f2
      rcases mul_eq_zero.1 f2.symm with h | h
      · exact absurd h (mul_pos hα ar).ne'
      · exact h
    refine ⟨fun c hcT => ?_, key⟩
    rw [← hx c hcT, row, key]; ring
  · rintro ⟨h1, h2⟩ c hcT
    rw [row, h2, h1 c hcT]; ring

/-- The computed right-hand side of the Neumann problem converges. -/
theorem neumann_rate (es : EigenSolver) (hes : SolverCorrect es) (hT : T.rows = 1 * ((p + 1) * (p + 1) * t.nElements))
    (g : V3 → Fin 3 → ℝ) (hg : SmoothData P geo g) : ∃ C : Nat → ℝ, (∀ κ, 0 ≤ C κ) ∧ ∀ (junk : Nat → ℝ) (i order j : Nat), i ≤ j → j ≤ order →
      ∃ v, LinearForm.compute junk (LinearForm.neumann g) ⟨t, p, geo, T⟩ (gaussSquare es order j) = some v ∧
        ∀ κ, ∀ c < T.cols, |v.at' c 0 - neumannLoad ⟨t, p, geo, T⟩ (leaves P M) g c| ≤ C κ / ((i : ℝ) + 1) ^ κ := by
  obtain ⟨t', k1, -, k3, -, -, k6, -⟩ := tree_facts (K := ℝ) near corner P M hP
  obtain rfl : t = t' := Option.some.inj (ht.symm.trans k1)
  obtain ⟨els', l1, l2⟩ := ((C90_load es hes near corner P M hP ⟨t, p, geo, T⟩ ht hreg (smooth_patches P geo hsm)).1 hT).2 g hg
  obtain rfl : leaves P M = els' := Option.some.inj ((elements_eq t P M hP k3 k6).symm.trans l1)
  choose Cl hCl using l2
  simp only [Algebra.algebraMap_self, RingHom.id_apply] at hCl
  refine ⟨fun κ => max (Cl κ) 0, fun κ => le_max_right _ _, fun junk i order j hij hjo => ?_⟩
  obtain ⟨v, v1, -⟩ := hCl 0 order j hjo junk
  refine ⟨v, v1, fun κ c hcn => ?_⟩
  obtain ⟨w, w1, -, -, w4⟩ := hCl κ order j hjo junk
  obtain rfl : v = w := Option.some.inj (v1.symm.trans w1)
  exact (w4 c hcn).trans ((div_le_div_of_nonneg_right (le_max_left _ _) (by positivity)).trans (rate_mono _ (le_max_right _ _) i j κ hij))

/-- The computed matrix converges. -/
theorem matrix_rate (es : EigenSolver) (hes : SolverCorrect es) (junkB : Nat → V3) (B0 B : Addr → Ball V3)
    (hB : computeElementEnclosings t (fun p s => (geo p s).1) junkB B0 = some B)
    (hdeg : ∀ a b, IsNode P M a → IsNode P M b → pairDegree Operator.laplaceHyp.order p (compareElements t B a b).2 M < 50)
    (hT : T.rows = 1 * ((p + 1) * (p + 1) * t.nElements)) :
    ∃ C : Nat → ℝ, (∀ κ, 0 ≤ C κ) ∧ ∀ (i : Nat) (GS : Nat → Cubature ℝ), RulesFrom es i GS → ∀ (ffq : Addr → Nat → SurfPt),
      (∀ a, IsNode P M a → ∀ k < (GS (farfieldDegree Operator.laplaceHyp.order p).toNat).size, ffq a k =
        map2surface t geo a ((GS (farfieldDegree Operator.laplaceHyp.order p).toNat).xi k) (getH t a * (GS (farfieldDegree Operator.laplaceHyp.order p).toNat).w k)) →
      ∀ (jr jk : Nat → ℝ),
      ∃ L, Dense.tasks t 1 ((p + 1) * (p + 1)) (evaluateBilinearForm Operator.laplaceHyp.order p t B (Operator.laplaceHyp.integrand jr jk p M)
          (map2surface t geo) GS ffq) = some L ∧
        ∀ ws, ws.Perm L.flatten → ∀ junk : Nat → Nat → ℝ, ∃ S, Dense.compute junk t 1 ((p + 1) * (p + 1)) ws T = some S ∧ S.rows = T.cols ∧ S.cols = T.cols ∧
          ∀ κ, ∀ c < T.cols, ∀ d < T.cols, |S.at' c d - hypersingularMatrix ⟨t, p, geo, T⟩ (leaves P M) c d| ≤ C κ / ((i : ℝ) + 1) ^ κ :=
  matrix_error_of near corner P M hP hM hc ho geo hreg hsm hw hemb hcusp t ht Operator.laplaceHyp rfl (fun f g => hypersingularForm ⟨t, p, geo, T⟩ (leaves P M) f g)
    es (C89_operators es hes 0).2.2.2.1 junkB B0 B hB p hdeg T hT
    fun jr jk f g => form_entries near corner P M hP hM hc ho geo hreg hsm hw hemb hcusp t ht p jr jk T f g

include hconst hind in
/-- The solutions of perturbed stabilised systems converge. -/
theorem neumann_converge (e : EMat ℝ) (he : EqualsConstant P M ⟨t, p, geo, T⟩ e 1) (g : V3 → Fin 3 → ℝ) (hg : SmoothData P geo g) (α : ℝ) (hα : 0 < α) :
    let A := hypersingularMatrix ⟨t, p, geo, T⟩ (leaves P M)
    let m := galerkinLoad ⟨t, p, geo, T⟩ (leaves P M) fun _ => 1
    let b := neumannLoad ⟨t, p, geo, T⟩ (leaves P M) g
    PositiveDefinite T.cols (stabilised α A m) ∧
    ∃ x, Solves T.cols (stabilised α A m) x b ∧ (∀ y, Solves T.cols (stabilised α A m) y b → ∀ c < T.cols, y c = x c) ∧
    (surfaceIntegral t geo (leaves P M) (fun _ s => ∑ k, g s.f k * cross3 s.dx s.dy k) = 0 →
      Solves T.cols A x b ∧ ∑ c ∈ range T.cols, m c * x c = 0 ∧
      ∀ y, Solves T.cols A y b → ∑ c ∈ range T.cols, m c * y c = 0 → ∀ c < T.cols, y c = x c) ∧
    ∀ Cm Cv Cw : Nat → ℝ, (∀ κ, 0 ≤ Cm κ) → (∀ κ, 0 ≤ Cv κ) → (∀ κ, 0 ≤ Cw κ) → ∃ (N : Nat) (C : Nat → ℝ), ∀ i, N ≤ i → ∀ (S : Nat → Nat → ℝ) (v w : Nat → ℝ),
      (∀ κ, ∀ c < T.cols, ∀ d < T.cols, |S c d - A c d| ≤ Cm κ / ((i : ℝ) + 1) ^ κ) → (∀ κ, ∀ c < T.cols, |v c - m c| ≤ Cv κ / ((i : ℝ) + 1) ^ κ) →
      (∀ κ, ∀ c < T.cols, |w c - b c| ≤ Cw κ / ((i : ℝ) + 1) ^ κ) →
      PositiveDefinite T.cols (stabilised α S v) ∧ ∃ y, Solves T.cols (stabilised α S v) y w ∧
        (∀ z, Solves T.cols (stabilised α S v) z w → ∀ c < T.cols, z c = y c) ∧ ∀ κ, ∀ c < T.cols, |y c - x c| ≤ C κ / ((i : ℝ) + 1) ^ κ := by
  intro A m b
  set n := T.cols with hn
  have pd : PositiveDefinite n (stabilised α A m) :=
    stabilised_pos near corner P M hP hM hc ho geo hreg hsm hw hemb hcusp t ht p T hconst hind α hα
  obtain ⟨x, x1, x2⟩ := WellPosed.solvable n (stabilised α A m) (fun f hf c hcn => by
    by_contra h
    have := pd f ⟨c, hcn, h⟩
    rw [sum_eq_zero fun c hc => by rw [hf c (mem_range.1 hc), mul_zero]] at this
    exact lt_irrefl 0 this) b
  have un := fun h0 => unstabilised near corner P M hP hM hc ho geo hreg hsm hw hemb hcusp t ht p T e he α hα g hg h0
  refine ⟨pd, x, x1, x2, fun h0 => ⟨((un h0 x).1 x1).1, ((un h0 x).1 x1).2, fun y y1 y2 => x2 y ((un h0 y).2 ⟨y1, y2⟩)⟩, fun Cm Cv Cw Cm0 Cv0 Cw0 => ?_⟩
  obtain ⟨ε0, he0, Ks, hKs, stab⟩ := Galerkin.stable n (stabilised α A m) pd x b x1
  let μ := ∑ c ∈ range n, |m c|
  have hμ : ∀ c < n, |m c| ≤ μ := fun c hcn => single_le_sum (f := fun c => |m c|) (fun _ _ => abs_nonneg _) (mem_range.2 hcn)
  have μ0 : 0 ≤ μ := sum_nonneg fun _ _ => abs_nonneg _
  let E : Nat → ℝ := fun κ => Cm κ + α * (Cv κ * (2 * μ + Cv 0)) + Cw κ
  have a0 : ∀ κ, 0 ≤ α * (Cv κ * (2 * μ + Cv 0)) := fun κ => mul_nonneg hα.le (mul_nonneg (Cv0 κ) (by linarith [Cv0 0]))
  have E0 : ∀ κ, 0 ≤ E κ := fun κ => add_nonneg (add_nonneg (Cm0 κ) (a0 κ)) (Cw0 κ)
  obtain ⟨N, hN⟩ := exists_nat_gt (E 1 / ε0)
  refine ⟨N, fun κ => Ks * E κ, fun i hi S v w S4 v2 w2 => ?_⟩
  have i0 : (0 : ℝ) < (i : ℝ) + 1 := by positivity
  have i1 : ∀ κ, (0 : ℝ) < ((i : ℝ) + 1) ^ κ := fun κ => by positivity
  have small : ∀ κ, min (E κ / ((i : ℝ) + 1) ^ κ) (E 1 / ((i : ℝ) + 1) ^ 1) ≤ ε0 := fun κ => by
    refine (min_le_right _ _).trans ?_
    rw [pow_one, div_le_iff₀ i0]
    rw [div_lt_iff₀ he0] at hN
    have : (N : ℝ) ≤ i := Nat.cast_le.2 hi
    nlinarith
  have mat : ∀ κ, ∀ c < n, ∀ d < n, |stabilised α S v c d - stabilised α A m c d| ≤ E κ / ((i : ℝ) + 1) ^ κ := fun κ c hcn d hdn => by
    have h1 := S4 κ c hcn d hdn
    have h2 := v2 κ c hcn
    have h3 := v2 κ d hdn
    have h4 := v2 0 d hdn
    rw [pow_zero, div_one] at h4
    have h5 : |v d| ≤ μ + Cv 0 := by
      have := abs_add_le (v d - m d) (m d)
      rw [sub_add_cancel] at this
      linarith [hμ d hdn]
    have h6 : |v c * v d - m c * m d| ≤ Cv κ / ((i : ℝ) + 1) ^ κ * (2 * μ + Cv 0) := by
      have e1 : v c * v d - m c * m d = (v c - m c) * v d + m c * (v d - m d) := by ring
      rw [e1]
      refine (abs_add_le _ _).trans ?_
      rw [abs_mul, abs_mul]
      have q0 : 0 ≤ Cv κ / ((i : ℝ) + 1) ^ κ := div_nonneg (Cv0 κ) (i1 κ).le
      have q1 := mul_le_mul h2 h5 (abs_nonneg _) q0
      have q2 := mul_le_mul (hμ c hcn) h3 (abs_nonneg _) μ0
      nlinarith
    have e2 : stabilised α S v c d - stabilised α A m c d = (S c d - A c d) + α * (v c * v d - m c * m d) := by
      unfold stabilised; ring
    rw [e2]
    refine (abs_add_le _ _).trans ?_
    rw [abs_mul, abs_of_pos hα]
    have h7 := mul_le_mul_of_nonneg_left h6 hα.le
    have h8 : 0 ≤ Cw κ / ((i : ℝ) + 1) ^ κ := div_nonneg (Cw0 κ) (i1 κ).le
    have h9 : E κ / ((i : ℝ) + 1) ^ κ = Cm κ / ((i : ℝ) + 1) ^ κ + α * (Cv κ / ((i : ℝ) + 1) ^ κ * (2 * μ + Cv 0)) + Cw κ / ((i : ℝ) + 1) ^ κ := by
      simp only [E]; ring
    rw [h9]
    linarith
  have rhs : ∀ κ, ∀ c < n, |w c - b c| ≤ E κ / ((i : ℝ) + 1) ^ κ := fun κ c hcn =>
    (w2 κ c hcn).trans (div_le_div_of_nonneg_right (by simp only [E]; linarith [Cm0 κ, a0 κ]) (i1 κ).le)
  have st := fun κ => stab (stabilised α S v) _ (small κ) fun c hcn d hdn => le_min (mat κ c hcn d hdn) (mat 1 c hcn d hdn)
  obtain ⟨pd', uniq, -⟩ := st 0
  obtain ⟨y, y1, y2⟩ := uniq w
  refine ⟨pd', y, y1, y2, fun κ c hcn => ?_⟩
  refine ((st κ).2.2 _ y y1 (fun c hcn => le_min (rhs κ c hcn) (rhs 1 c hcn)) c hcn).trans ?_
  rw [mul_div_assoc]
  exact mul_le_mul_of_nonneg_left (min_le_left _ _) hKs

include hconst hind in
theorem neumann_system (e : EMat ℝ) (he : EqualsConstant P M ⟨t, p, geo, T⟩ e 1) (es : EigenSolver) (hes : SolverCorrect es) (junkB : Nat → V3) (B0 B : Addr → Ball V3)
    (hB : computeElementEnclosings t (fun p s => (geo p s).1) junkB B0 = some B)
    (hdeg : ∀ a b, IsNode P M a → IsNode P M b → pairDegree Operator.laplaceHyp.order p (compareElements t B a b).2 M < 50)
    (hT : T.rows = 1 * ((p + 1) * (p + 1) * t.nElements)) (g : V3 → Fin 3 → ℝ) (hg : SmoothData P geo g) (α : ℝ) (hα : 0 < α) :
    SolvesNeumann es B P M ⟨t, p, geo, T⟩ g α := by
  obtain ⟨t', k1, -, k3, -, -, k6, -⟩ := tree_facts (K := ℝ) near corner P M hP
  obtain rfl : t = t' := Option.some.inj (ht.symm.trans k1)
  obtain ⟨pd, x, x1, x2, x3, conv⟩ := neumann_converge near corner P M hP hM hc ho geo hreg hsm hw hemb hcusp t ht p T hconst hind e he g hg α hα
  obtain ⟨Cm, Cm0, hCm⟩ := matrix_rate near corner P M hP hM hc ho geo hreg hsm hw hemb hcusp t ht p T es hes junkB B0 B hB hdeg hT
  obtain ⟨Cv, Cv0, hCv⟩ := load_rate near corner P M hP hM hc ho geo hreg hsm hw hemb hcusp t ht es hes p T hT (fun _ => 1) fun _ _ _ _ => contDiffAt_const
  obtain ⟨Cw, Cw0, hCw⟩ := neumann_rate near corner P M hP hM hc ho geo hreg hsm hw hemb hcusp t ht p T es hes hT g hg
  obtain ⟨N, C, hN⟩ := conv Cm Cv Cw Cm0 Cv0 Cw0
  refine ⟨leaves P M, elements_eq t P M hP k3 k6, pd, x, x1, x2, x3, N, C, fun i hi GS hGS ffq hff jr jk junk1 junk2 order j hij hjo => ?_⟩
  obtain ⟨L, L1, L2⟩ := hCm i GS hGS ffq hff jr jk
  obtain ⟨v, v1, v2⟩ := hCv junk1 i order j hij hjo
  obtain ⟨w, w1, w2⟩ := hCw junk1 i order j hij hjo
  refine ⟨L, v, w, L1, v1, w1, fun ws hws => ?_⟩
  obtain ⟨S, S1, S2, S3, S4⟩ := L2 ws hws junk2
  exact ⟨S, S1, S2, S3, hN i hi _ _ _ S4 v2 w2⟩

end
end
end Hypersingular
open Hypersingular

section
variable (near : V3 → V3 → Bool) (corner : Nat → Nat → V3) (P M : Nat) (hP : 0 < P) (hM : 1 ≤ M) (hc : ConformingPatches near corner P)
    (ho : OrientedPatches corner P) (geo : Nat → ℝ × ℝ → V3 × V3 × V3) (hreg : RegularPatches P geo) (hsm : SmoothSurface P geo)
    (hw : Watertight corner P fun p s => (geo p s).1) (hemb : Embedded corner P geo) (hcusp : NoCusps P geo)
    (t : Mesh.Tree ℝ) (ht : initElementTree near corner P M = some t)
include hP hM hc ho hreg hsm hw hemb hcusp ht

/-- C92: the bilinear form of the hypersingular operator is symmetric, positive semidefinite and bilinear in the degrees of freedom, for every transformation
matrix; it is zero exactly for the functions that are constant on every element, and these functions are in its kernel. -/
theorem C92_form (p : Nat) (T : EMat ℝ) : let space : Space ℝ := ⟨t, p, geo, T⟩
    ∃ els, elements t = some els ∧ ∀ f g : EMat ℝ, hypersingularForm space els f g = hypersingularForm space els g f ∧ 0 ≤ hypersingularForm space els f f ∧
      (hypersingularForm space els f f = 0 ↔ ElementwiseConstant P M space f) ∧
      (ElementwiseConstant P M space f → hypersingularForm space els f g = 0) ∧
      hypersingularForm space els f g = ∑ c ∈ range T.cols, f.at' c 0 * ∑ d ∈ range T.cols, hypersingularMatrix space els c d * g.at' d 0 := by
  intro space
  obtain ⟨t', k1, -, k3, -, -, k6, -⟩ := tree_facts (K := ℝ) near corner P M hP
  obtain rfl : t = t' := Option.some.inj (ht.symm.trans k1)
  refine ⟨leaves P M, elements_eq t P M hP k3 k6, fun f g => ?_⟩
  obtain ⟨h1, h2, h3⟩ := form_definite near corner P M hP hM hc ho geo hreg hsm hw hemb hcusp t ht p T f
  exact ⟨form_symm near corner P M hP hM hc ho geo hreg hsm hw hemb hcusp t ht p T f g, h1, h2, fun h => h3 h g,
    expand near corner P M hP hM hc ho geo hreg hsm hw hemb hcusp t ht p T f g⟩

/-- C92: the computed matrix of the hypersingular operator converges, for every transformation matrix of the right size. -/
theorem C92_matrix (p : Nat) (T : EMat ℝ) (hT : T.rows = (p + 1) * (p + 1) * t.nElements) (hp : p < 50) (hl : (p + 2) * M < 100)
    (es : EigenSolver) (hes : SolverCorrect es) (junkB : Nat → V3) (B0 B : Addr → Ball V3)
    (hB : computeElementEnclosings t (fun p s => (geo p s).1) junkB B0 = some B) : HypersingularAccurate es B P M ⟨t, p, geo, T⟩ := by
  obtain ⟨t', k1, -, k3, -, -, k6, -⟩ := tree_facts (K := ℝ) near corner P M hP
  obtain rfl : t = t' := Option.some.inj (ht.symm.trans k1)
  obtain ⟨C, -, hC⟩ := matrix_rate near corner P M hP hM hc ho geo hreg hsm hw hemb hcusp t ht p T es hes junkB B0 B hB
    (fun a b _ _ => (C57_no_assert 1 p _ M (by omega) (by omega) hl).2) (by rw [hT]; ring)
  refine ⟨leaves P M, elements_eq t P M hP k3 k6, C, fun i GS hGS ffq hff jr jk junk => ?_⟩
  obtain ⟨L, h1, h2⟩ := hC i GS hGS ffq hff jr jk
  exact ⟨L, h1, fun ws hws => h2 ws hws junk⟩

variable (hconn : PatchesConnected corner P) (junkT : Nat → ℝ) (junkM : Nat → Nat → ℝ) (solve : Nat → (Nat → Nat → ℝ) → (Nat → ℝ) → Nat → ℝ)
    (hs : SolvesSystems solve) (p rep : Nat) (hp0 : 0 < p) (hp : p ≤ 4) (hrep : 1 ≤ rep) (hrp : rep ≤ p) (T : EMat ℝ)
    (hT : Ansatz.transformationCont junkT junkM solve t p M P rep = some T)
include hconn hs hp0 hp hrep hrp hT

/-- C92: with the continuous ansatz functions on a connected surface, the kernel of the bilinear form consists of the multiples of the degrees of freedom
of the constant function. -/
theorem C92_kernel : let space : Space ℝ := ⟨t, p, geo, T⟩
    ∃ els, elements t = some els ∧ ∃ e : EMat ℝ, e.rows = T.cols ∧ e.cols = 1 ∧ EqualsConstant P M space e 1 ∧
      ∀ f : EMat ℝ, (hypersingularForm space els f f = 0 ↔ ∃ c : ℝ, ∀ k < T.cols, f.at' k 0 = c * e.at' k 0) := by
  intro space
  obtain ⟨u, g1, g2, g3, -, -, g6, -⟩ := tree_facts (K := ℝ) near corner P M hP
  obtain rfl : u = t := Option.some.inj (g1.symm.trans ht)
  obtain ⟨e, e1, e2, e3⟩ := constant_mem P M geo u near corner hP hc ho ht junkT junkM solve hs p rep hp0 hp hrep hrp T hT
  refine ⟨leaves P M, elements_eq u P M hP g3 g6, e, e1, e2, e3, fun f => ?_⟩
  rw [(form_definite near corner P M hP hM hc ho geo hreg hsm hw hemb hcusp u ht p T f).2.1]
  have comb : ∀ (f : EMat ℝ) (c : ℝ) (n : Nat) (h : ℝ) (s : ℝ × ℝ), discreteFunction T ⟨T.cols, 1, fun k _ => f.at' k 0 - c * e.at' k 0⟩ u.nElements p 0 n h s =
      discreteFunction T f u.nElements p 0 n h s - c * discreteFunction T e u.nElements p 0 n h s := fun f c n h s => by
    rw [← discreteFunction_expand T f, ← discreteFunction_expand T e, ← discreteFunction_expand T ⟨T.cols, 1, fun k _ => f.at' k 0 - c * e.at' k 0⟩,
      mul_sum, ← sum_sub_distrib]
    exact sum_congr rfl fun k _ => by ring
  constructor
  · intro h
    obtain ⟨c, hcc⟩ := constant_of_elementwise P M geo u near corner hP hc ho hconn ht junkT junkM solve hs p rep hp0 (by omega) hrep hrp T hT f h
    refine ⟨c, fun k hk => sub_eq_zero.1 ?_⟩
    refine C83_continuous near corner junkT junkM solve hs p M P rep hP hp0 hp hrep hrp hc ho u ht T hT ⟨T.cols, 1, fun k _ => f.at' k 0 - c * e.at' k 0⟩
      (fun a ha s s1 s2 s3 s4 => ?_) k hk
    obtain ⟨-, l, -⟩ := g2 M le_rfl a (mem_leaves.2 ha)
    rw [WellPosed.ofReal_self, ← g3, ← show getH u a = 1 / 2 ^ M by unfold getH; rw [l, ha.2.1], comb,
      show discreteFunction T f u.nElements p 0 (u.id a) (getH u a) s = c from hcc a ha s s1 s2 s3 s4,
      show discreteFunction T e u.nElements p 0 (u.id a) (getH u a) s = 1 from e3 a ha s s1 s2 s3 s4]
    ring
  · rintro ⟨c, hcc⟩ a ha
    refine ⟨c, fun s s1 s2 s3 s4 => ?_⟩
    have h1 := comb f c (u.id a) (getH u a) s
    rw [show discreteFunction T e u.nElements p 0 (u.id a) (getH u a) s = 1 from e3 a ha s s1 s2 s3 s4, ← discreteFunction_expand,
      sum_eq_zero fun k hk => by
        simp only
        rw [hcc k (mem_range.1 hk), sub_self, zero_mul]] at h1
    show discreteFunction T f u.nElements p 0 (u.id a) (getH u a) s = c
    linarith

/-- C92: the Neumann problem with continuous ansatz functions on a connected surface. -/
theorem C92_neumann (hl : (p + 2) * M < 100) (es : EigenSolver) (hes : SolverCorrect es) (junkB : Nat → V3) (B0 B : Addr → Ball V3)
    (hB : computeElementEnclosings t (fun p s => (geo p s).1) junkB B0 = some B)
    (g : V3 → Fin 3 → ℝ) (hg : SmoothData P geo g) (α : ℝ) (hα : 0 < α) : SolvesNeumann es B P M ⟨t, p, geo, T⟩ g α := by
  obtain ⟨u, g1, g2, g3, -⟩ := tree_facts (K := ℝ) near corner P M hP
  obtain rfl : u = t := Option.some.inj (g1.symm.trans ht)
  have hT' : T.rows = 1 * ((p + 1) * (p + 1) * u.nElements) := by rw [WellPosed.cont_rows near corner junkT junkM solve hs p M P rep hP hp0 (by omega) hrep hrp hc ho u ht T hT, g3]; ring
  obtain ⟨e, -, -, e3⟩ := constant_mem P M geo u near corner hP hc ho ht junkT junkM solve hs p rep hp0 hp hrep hrp T hT
  refine neumann_system near corner P M hP hM hc ho geo hreg hsm hw hemb hcusp u ht p T
    (fun f h => constant_of_elementwise P M geo u near corner hP hc ho hconn ht junkT junkM solve hs p rep hp0 (by omega) hrep hrp T hT f h)
    (fun f hf => ?_) e e3 es hes junkB B0 B hB (fun a b _ _ => (C57_no_assert 1 p _ M (by omega) (by omega) hl).2) hT' g hg α hα
  refine C83_continuous near corner junkT junkM solve hs p M P rep hP hp0 hp hrep hrp hc ho u ht T hT f fun a ha s s1 s2 s3 s4 => ?_
  have := hf a ha s s1 s2 s3 s4
  simp only at this
  obtain ⟨-, l, -⟩ := g2 M le_rfl a (mem_leaves.2 ha)
  rw [WellPosed.ofReal_self, ← g3, ← show getH u a = 1 / 2 ^ M by unfold getH; rw [l, ha.2.1]]
  exact this

end

end Bembel.Props
