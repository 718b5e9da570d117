import Verif.Spec.ReactionDiffusion
import Verif.Props.NeumannSystem
import Verif.Props.LaplaceBeltrami
/-! # C93: the L2 projection and the equation `-β Δu + α u = g` on surfaces -/

namespace Bembel.Props
open Finset Mesh Spec Util SuperSpace MeasureTheory FunctionEval
open scoped ContDiff

namespace Reaction
open Hypersingular (square_linear clamp square_congr inner_cont cross_cont)

/-- A continuous nonnegative function with the integral zero is zero on the square. -/
theorem square_zero (F : ℝ × ℝ → ℝ) (hF : ContinuousOn F {x | ClosedSquare x}) (h0 : ∀ x, ClosedSquare x → 0 ≤ F x) :
    0 ≤ (∫ x in (0 : ℝ)..1, ∫ y in (0 : ℝ)..1, F (x, y)) ∧
    ((∫ x in (0 : ℝ)..1, ∫ y in (0 : ℝ)..1, F (x, y)) = 0 → ∀ x, ClosedSquare x → F x = 0) := by
  obtain ⟨G, hG, e, v⟩ := clamp F hF
  have pos : ∀ x, 0 ≤ G x := fun x => by
    obtain ⟨y, hy, h⟩ := v x
    rw [h]; exact h0 y hy
  rw [← square_congr F G e]
  have inn : ∀ x, 0 ≤ ∫ y in (0 : ℝ)..1, G (x, y) := fun x => intervalIntegral.integral_nonneg zero_le_one fun y _ => pos _
  refine ⟨intervalIntegral.integral_nonneg zero_le_one fun x _ => inn x, fun h x hx => ?_⟩
  by_contra hne
  rw [← e x hx] at hne
  have hlt := lt_of_le_of_ne (pos x) (Ne.symm hne)
  have i1 : 0 < ∫ y in (0 : ℝ)..1, G (x.1, y) :=
    intervalIntegral.integral_pos zero_lt_one (Continuous.continuousOn (by fun_prop)) (fun y _ => pos _) ⟨x.2, ⟨hx.2.2.1, hx.2.2.2⟩, hlt⟩
  have i2 := intervalIntegral.integral_pos zero_lt_one (inner_cont G hG).continuousOn (fun y _ => inn y) ⟨x.1, ⟨hx.1, hx.2.1⟩, i1⟩
  exact i2.ne' h

/-- The surface gradient is unique. -/
theorem gradient_unique (dx dy : V3) (h : cross3 dx dy ≠ 0) {ux uy : ℝ} {g g' : V3} (hg : IsSurfaceGradient dx dy ux uy g)
    (hg' : IsSurfaceGradient dx dy ux uy g') : g = g' := by
  rw [← sub_eq_zero, ← inner_self_eq_zero (𝕜 := ℝ), inner_sub_sub_self, surfaceGradient_inner dx dy h hg hg' hg hg', surfaceGradient_inner dx dy h hg hg' hg' hg']
  rw [real_inner_comm g g', surfaceGradient_inner dx dy h hg hg' hg' hg']
  ring

section
variable (near : V3 → V3 → Bool) (corner : Nat → Nat → V3) (P M : Nat) (hP : 0 < P) (geo : Nat → ℝ × ℝ → V3 × V3 × V3)
    (hreg : RegularPatches P geo) (hsm : SmoothPatches P geo) (t : Mesh.Tree ℝ) (ht : initElementTree near corner P M = some t) (p : Nat) (T : EMat ℝ)

/-- Continuity on the closed elements. -/
def Cont (F : Addr → SurfPt → ℝ) : Prop := ∀ a, IsNode P M a → ContinuousOn (fun x => F a (elementPoint t geo a x)) {x | ClosedSquare x}

/-- Surface integrals are linear. -/
theorem integral_linear (n : Nat) (w : Nat → ℝ) (F : Nat → Addr → SurfPt → ℝ) (hF : ∀ c, Cont P M geo t (F c)) :
    surfaceIntegral t geo (leaves P M) (fun a s => ∑ c ∈ range n, w c * F c a s) = ∑ c ∈ range n, w c * surfaceIntegral t geo (leaves P M) (F c) := by
  unfold surfaceIntegral
  simp only [← List.sum_toFinset _ (leaves_nodup P M), mul_sum]
  rw [sum_comm]
  refine sum_congr rfl fun a ha => ?_
  rw [List.mem_toFinset, mem_leaves] at ha
  rw [square_linear n w (fun c x => F c a (elementPoint t geo a x)) fun c => hF c a ha, mul_sum]
  exact sum_congr rfl fun c _ => mul_left_comm _ _ _

theorem integral_add (v w : ℝ) (F G : Addr → SurfPt → ℝ) (hF : Cont P M geo t F) (hG : Cont P M geo t G) :
    surfaceIntegral t geo (leaves P M) (fun a s => v * F a s + w * G a s) = v * surfaceIntegral t geo (leaves P M) F + w * surfaceIntegral t geo (leaves P M) G := by
  have := integral_linear P M geo t 2 (fun c => if c = 0 then v else w) (fun c => if c = 0 then F else G) fun c => by split <;> assumption
  simpa [sum_range_succ] using this

/-- Nonnegative continuous functions have nonnegative integrals, and the integral is zero only for the function zero. -/
theorem integral_zero (F : Addr → SurfPt → ℝ) (hF : Cont P M geo t F) (h0 : ∀ a, IsNode P M a → ∀ x, ClosedSquare x → 0 ≤ F a (elementPoint t geo a x)) :
    0 ≤ surfaceIntegral t geo (leaves P M) F ∧
    (surfaceIntegral t geo (leaves P M) F = 0 → ∀ a, IsNode P M a → ∀ x, ClosedSquare x → F a (elementPoint t geo a x) = 0) := by
  unfold surfaceIntegral
  rw [← List.sum_toFinset _ (leaves_nodup P M)]
  have h2 : ∀ a, 0 < algebraMap ℝ ℝ (getH t a ^ 2) := fun a => by
    have : 0 < getH t a := by unfold getH; positivity
    exact pow_pos this 2
  have sz := fun a ha => square_zero (fun x => F a (elementPoint t geo a x)) (hF a ha) (h0 a ha)
  have nn : ∀ a ∈ (leaves P M).toFinset, 0 ≤ algebraMap ℝ ℝ (getH t a ^ 2) * ∫ x in (0 : ℝ)..1, ∫ y in (0 : ℝ)..1, F a (elementPoint t geo a (x, y)) := fun a ha => by
    rw [List.mem_toFinset, mem_leaves] at ha
    exact mul_nonneg (h2 a).le (sz a ha).1
  refine ⟨sum_nonneg nn, fun h a ha x hx => ?_⟩
  have := (sum_eq_zero_iff_of_nonneg nn).1 h a (List.mem_toFinset.2 (mem_leaves.2 ha))
  exact (sz a ha).2 ((mul_eq_zero.1 this).resolve_left (h2 a).ne') x hx

include hP hsm ht in
/-- The surface points depend continuously on the coordinates. -/
theorem parts_cont (a : Addr) (ha : IsNode P M a) : ContinuousOn (fun x => ((elementPoint t geo a x).f, (elementPoint t geo a x).dx, (elementPoint t geo a x).dy)) {x | ClosedSquare x} := by
  intro x hx
  obtain ⟨n1, n2⟩ := node_square near corner P M hP t ht M le_rfl a ha x hx
  obtain ⟨g, g1, g2⟩ := hsm _ n1
  have c : ContinuousAt (fun x : ℝ × ℝ => g ((t.llc a).1 + getH t a * x.1, (t.llc a).2 + getH t a * x.2)) x :=
    ContinuousAt.comp (f := fun x : ℝ × ℝ => ((t.llc a).1 + getH t a * x.1, (t.llc a).2 + getH t a * x.2)) (g1 _ n2).continuousAt (Continuous.continuousAt (by fun_prop))
  refine c.continuousWithinAt.congr (fun y hy => ?_) ?_
  · obtain ⟨-, m2⟩ := node_square near corner P M hP t ht M le_rfl a ha y hy
    rw [← g2 _ m2]; rfl
  · rw [← g2 _ n2]; rfl

include hP hsm ht in
theorem cross_contOn (a : Addr) (ha : IsNode P M a) : ContinuousOn (fun x => ‖cross3 (elementPoint t geo a x).dx (elementPoint t geo a x).dy‖) {x | ClosedSquare x} := by
  have c : Continuous fun q : V3 × V3 × V3 => ‖cross3 q.2.1 q.2.2‖ := (cross_cont (by fun_prop) (by fun_prop)).norm
  exact c.comp_continuousOn (parts_cont near corner P M hP geo hsm t ht a ha)

theorem value_cont (x : Nat → ℝ) : Cont P M geo t fun a s => valueAt ⟨t, p, geo, T⟩ x a s.xi := fun a _ =>
  (SurfaceRate.fun_smooth T ⟨T.cols, 1, fun c _ => x c⟩ t.nElements p 0 (t.id a) (getH t a)).continuous.continuousOn

/-- The surface gradient in terms of the partial derivatives. -/
noncomputable def grad (x : Nat → ℝ) (a : Addr) (s : SurfPt) : V3 :=
  surfGrad s.dx s.dy (discreteDx T ⟨T.cols, 1, fun c _ => x c⟩ t.nElements p 0 (t.id a) (getH t a) s.xi)
    (discreteDy T ⟨T.cols, 1, fun c _ => x c⟩ t.nElements p 0 (t.id a) (getH t a) s.xi)

include hP hreg ht in
theorem gradients_exist : Gradients P M ⟨t, p, geo, T⟩ (grad t p T) := fun x a s ha hs =>
  surfGrad_spec _ _ (node_regular near corner P M hP t ht geo hreg M le_rfl a ha s hs 1) _ _

include hP hreg hsm ht in
theorem grad_cont (x : Nat → ℝ) (a : Addr) (ha : IsNode P M a) : ContinuousOn (fun s => grad t p T x a (elementPoint t geo a s)) {x | ClosedSquare x} := by
  have pc := parts_cont near corner P M hP geo hsm t ht a ha
  have cx : ContinuousOn (fun s => (elementPoint t geo a s).dx) {x | ClosedSquare x} := (by fun_prop : Continuous fun q : V3 × V3 × V3 => q.2.1).comp_continuousOn pc
  have cy : ContinuousOn (fun s => (elementPoint t geo a s).dy) {x | ClosedSquare x} := (by fun_prop : Continuous fun q : V3 × V3 × V3 => q.2.2).comp_continuousOn pc
  have ux := (SurfaceRate.dx_smooth T ⟨T.cols, 1, fun c _ => x c⟩ t.nElements p 0 (t.id a) (getH t a)).continuous.continuousOn (s := {x | ClosedSquare x})
  have uy := (SurfaceRate.dy_smooth T ⟨T.cols, 1, fun c _ => x c⟩ t.nElements p 0 (t.id a) (getH t a)).continuous.continuousOn (s := {x | ClosedSquare x})
  have nc := cross_contOn near corner P M hP geo hsm t ht a ha
  have d : ContinuousOn (fun s => 1 / ‖cross3 (elementPoint t geo a s).dx (elementPoint t geo a s).dy‖ ^ 2) {x | ClosedSquare x} :=
    continuousOn_const.div (nc.pow 2) fun s hs => pow_ne_zero 2 (norm_ne_zero_iff.2 (node_regular near corner P M hP t ht geo hreg M le_rfl a ha s hs 1))
  exact d.smul (((((cy.inner (𝕜 := ℝ) cy).mul ux).sub ((cx.inner (𝕜 := ℝ) cy).mul uy)).smul cx).add
    ((((cx.inner (𝕜 := ℝ) cx).mul uy).sub ((cx.inner (𝕜 := ℝ) cy).mul ux)).smul cy))

/-- The function and its gradient are linear in the degrees of freedom. -/
theorem value_expand (x : Nat → ℝ) (a : Addr) (s : ℝ × ℝ) :
    valueAt ⟨t, p, geo, T⟩ x a s = ∑ c ∈ range T.cols, x c * valueAt ⟨t, p, geo, T⟩ (unitDofs c) a s :=
  (discreteFunction_expand T ⟨T.cols, 1, fun c _ => x c⟩ t.nElements p 0 (t.id a) (getH t a) s).symm

theorem grad_expand (x : Nat → ℝ) (a : Addr) (s : SurfPt) : grad t p T x a s = ∑ c ∈ range T.cols, x c • grad t p T (unitDofs c) a s := by
  unfold grad
  rw [← discreteDx_expand T ⟨T.cols, 1, fun c _ => x c⟩, ← discreteDy_expand T ⟨T.cols, 1, fun c _ => x c⟩, ← surfGrad_sum]
  rfl

variable (α β : ℝ)

/-- The integrand of the bilinear form. -/
noncomputable def dens (x y : Nat → ℝ) (a : Addr) (s : SurfPt) : ℝ :=
  ‖cross3 s.dx s.dy‖ * (α * (valueAt ⟨t, p, geo, T⟩ x a s.xi * valueAt ⟨t, p, geo, T⟩ y a s.xi) + β * inner ℝ (grad t p T x a s) (grad t p T y a s))

include hP hreg hsm ht in
theorem dens_cont (x y : Nat → ℝ) : Cont P M geo t (dens geo t p T α β x y) := fun a ha =>
  (cross_contOn near corner P M hP geo hsm t ht a ha).mul ((((value_cont P M geo t p T x a ha).mul (value_cont P M geo t p T y a ha)).const_smul α).add
    (((grad_cont near corner P M hP geo hreg hsm t ht p T x a ha).inner (𝕜 := ℝ) (grad_cont near corner P M hP geo hreg hsm t ht p T y a ha)).const_smul β))

theorem dens_expand (x y : Nat → ℝ) (a : Addr) (s : SurfPt) :
    dens geo t p T α β x y a s = ∑ c ∈ range T.cols, x c * ∑ d ∈ range T.cols, y d * dens geo t p T α β (unitDofs c) (unitDofs d) a s := by
  unfold dens
  have e1 : valueAt ⟨t, p, geo, T⟩ x a s.xi * valueAt ⟨t, p, geo, T⟩ y a s.xi = ∑ c ∈ range T.cols, x c * ∑ d ∈ range T.cols, y d *
      (valueAt ⟨t, p, geo, T⟩ (unitDofs c) a s.xi * valueAt ⟨t, p, geo, T⟩ (unitDofs d) a s.xi) := by
    rw [value_expand geo t p T x, value_expand geo t p T y, sum_mul]
    exact sum_congr rfl fun c _ => by
      rw [mul_assoc, mul_sum]
      exact congrArg _ (sum_congr rfl fun d _ => by ring)
  have e2 : inner ℝ (grad t p T x a s) (grad t p T y a s) = ∑ c ∈ range T.cols, x c * ∑ d ∈ range T.cols, y d *
      inner ℝ (grad t p T (unitDofs c) a s) (grad t p T (unitDofs d) a s) := by
    rw [grad_expand t p T x, grad_expand t p T y, sum_inner]
    exact sum_congr rfl fun c _ => by
      rw [real_inner_smul_left, inner_sum]
      exact congrArg _ (sum_congr rfl fun d _ => by rw [real_inner_smul_right])
  rw [e1, e2, mul_sum, mul_sum, ← sum_add_distrib, mul_sum]
  refine sum_congr rfl fun c _ => ?_
  rw [mul_left_comm α, mul_left_comm β, ← mul_add, mul_left_comm, mul_sum, mul_sum, ← sum_add_distrib, mul_sum]
  exact congrArg _ (sum_congr rfl fun d _ => by ring)

include hP hreg hsm ht in
theorem form_expand (x y : Nat → ℝ) : surfaceIntegral t geo (leaves P M) (dens geo t p T α β x y) =
    ∑ c ∈ range T.cols, x c * ∑ d ∈ range T.cols, surfaceIntegral t geo (leaves P M) (dens geo t p T α β (unitDofs c) (unitDofs d)) * y d := by
  have dc := dens_cont near corner P M hP geo hreg hsm t ht p T α β
  rw [show dens geo t p T α β x y = fun a s => ∑ c ∈ range T.cols, x c * ∑ d ∈ range T.cols, y d * dens geo t p T α β (unitDofs c) (unitDofs d) a s from
    funext fun a => funext fun s => dens_expand geo t p T α β x y a s]
  rw [integral_linear P M geo t _ _ (fun c a s => ∑ d ∈ range T.cols, y d * dens geo t p T α β (unitDofs c) (unitDofs d) a s) fun c a ha =>
    continuousOn_finsetSum _ fun d _ => ((dc (unitDofs c) (unitDofs d) a ha).const_smul (y d))]
  refine sum_congr rfl fun c _ => ?_
  rw [integral_linear P M geo t _ _ (fun d => dens geo t p T α β (unitDofs c) (unitDofs d)) fun d => dc _ _]
  exact congrArg _ (sum_congr rfl fun d _ => mul_comm _ _)

include hP hreg ht in
/-- The bilinear form does not depend on the choice of the gradients. -/
theorem form_eq (gr : (Nat → ℝ) → Addr → SurfPt → V3) (hgr : Gradients P M ⟨t, p, geo, T⟩ gr) (x : Nat → ℝ) (a : Addr) (ha : IsNode P M a) (s : ℝ × ℝ)
    (hs : ClosedSquare s) : gr x a (elementPoint t geo a s) = grad t p T x a (elementPoint t geo a s) :=
  gradient_unique _ _ (node_regular near corner P M hP t ht geo hreg M le_rfl a ha s hs 1) (hgr x a s ha hs)
    (gradients_exist near corner P M hP geo hreg t ht p T x a s ha hs)

include hP hreg ht in
theorem form_dens (gr : (Nat → ℝ) → Addr → SurfPt → V3) (hgr : Gradients P M ⟨t, p, geo, T⟩ gr) (x y : Nat → ℝ) :
    reactionForm ⟨t, p, geo, T⟩ (leaves P M) gr α β x y = surfaceIntegral t geo (leaves P M) (dens geo t p T α β x y) :=
  SurfaceRate.surfaceIntegral_congr t geo _ _ _ fun a ha s hs => by
    have e := form_eq near corner P M hP geo hreg t ht p T gr hgr
    simp only [dens, e x a (mem_leaves.1 ha) s hs, e y a (mem_leaves.1 ha) s hs]

include hP hreg hsm ht in
/-- The bilinear form is positive definite as a form of functions. -/
theorem form_zero (hα : 0 < α) (hβ : 0 ≤ β) (x : Nat → ℝ) : 0 ≤ surfaceIntegral t geo (leaves P M) (dens geo t p T α β x x) ∧
    (surfaceIntegral t geo (leaves P M) (dens geo t p T α β x x) = 0 → ∀ a, IsNode P M a → ∀ s, ClosedSquare s → valueAt ⟨t, p, geo, T⟩ x a s = 0) := by
  have i0 : ∀ (a : Addr) (s : SurfPt), 0 ≤ β * inner ℝ (grad t p T x a s) (grad t p T x a s) := fun a s => mul_nonneg hβ real_inner_self_nonneg
  have v0 : ∀ (a : Addr) (s : SurfPt), 0 ≤ α * (valueAt ⟨t, p, geo, T⟩ x a s.xi * valueAt ⟨t, p, geo, T⟩ x a s.xi) := fun a s => mul_nonneg hα.le (mul_self_nonneg _)
  obtain ⟨h1, h2⟩ := integral_zero P M geo t (dens geo t p T α β x x) (dens_cont near corner P M hP geo hreg hsm t ht p T α β x x) fun a _ s _ =>
    mul_nonneg (norm_nonneg _) (add_nonneg (v0 _ _) (i0 _ _))
  refine ⟨h1, fun h a ha s hs => ?_⟩
  have := (mul_eq_zero.1 (h2 h a ha s hs)).resolve_left (norm_ne_zero_iff.2 (node_regular near corner P M hP t ht geo hreg M le_rfl a ha s hs 1))
  have z : α * (valueAt ⟨t, p, geo, T⟩ x a s * valueAt ⟨t, p, geo, T⟩ x a s) = 0 :=
    ((add_eq_zero_iff_of_nonneg (v0 a (elementPoint t geo a s)) (i0 a (elementPoint t geo a s))).1 this).1
  exact mul_self_eq_zero.1 ((mul_eq_zero.1 z).resolve_left hα.ne')

theorem dens_symm (x y : Nat → ℝ) : dens geo t p T α β x y = dens geo t p T α β y x := by
  funext a s
  simp only [dens, real_inner_comm, mul_comm (valueAt _ x _ _)]

/-- The exact matrix. -/
noncomputable def mat (c d : Nat) : ℝ := surfaceIntegral t geo (leaves P M) (dens geo t p T α β (unitDofs c) (unitDofs d))

include hP hreg hsm ht in
theorem mat_pos (hind : ∀ f : EMat ℝ, VanishesInside P M ⟨t, p, geo, T⟩ f → ∀ c < T.cols, f.at' c 0 = 0) (hα : 0 < α) (hβ : 0 ≤ β) :
    PositiveDefinite T.cols (mat P M geo t p T α β) := fun f ⟨c, hcn, hf⟩ => by
  obtain ⟨h1, h2⟩ := form_zero near corner P M hP geo hreg hsm t ht p T α β hα hβ f
  have e := form_expand near corner P M hP geo hreg hsm t ht p T α β f f
  refine lt_of_le_of_ne (e ▸ h1) fun h => hf ?_
  exact hind ⟨T.cols, 1, fun c _ => f c⟩ (fun a ha s s1 s2 s3 s4 => h2 (e.trans h.symm) a ha s ⟨s1.le, s2.le, s3.le, s4.le⟩) c hcn

/-- The minimum of a quadratic function. -/
theorem quadratic (n : Nat) (A : Nat → Nat → ℝ) (hA : ∀ c d, A c d = A d c) (x b : Nat → ℝ) (hx : Solves n A x b) (f : Nat → ℝ) :
    ((∑ c ∈ range n, f c * ∑ d ∈ range n, A c d * f d) - 2 * ∑ c ∈ range n, f c * b c) -
      ((∑ c ∈ range n, x c * ∑ d ∈ range n, A c d * x d) - 2 * ∑ c ∈ range n, x c * b c) =
    ∑ c ∈ range n, (f c - x c) * ∑ d ∈ range n, A c d * (f d - x d) := by
  have e1 : ∀ u : Nat → ℝ, ∑ c ∈ range n, u c * ∑ d ∈ range n, A c d * x d = ∑ c ∈ range n, u c * b c := fun u =>
    sum_congr rfl fun c hc => by rw [hx c (mem_range.1 hc)]
  have e2 : ∑ c ∈ range n, x c * ∑ d ∈ range n, A c d * f d = ∑ c ∈ range n, f c * b c := by
    rw [← e1]
    simp only [mul_sum]
    rw [sum_comm]
    exact sum_congr rfl fun c _ => sum_congr rfl fun d _ => by rw [hA d c]; ring
  have e3 : ∑ c ∈ range n, (f c - x c) * ∑ d ∈ range n, A c d * (f d - x d) = (∑ c ∈ range n, f c * ∑ d ∈ range n, A c d * f d) -
      (∑ c ∈ range n, f c * ∑ d ∈ range n, A c d * x d) - (∑ c ∈ range n, x c * ∑ d ∈ range n, A c d * f d) +
      ∑ c ∈ range n, x c * ∑ d ∈ range n, A c d * x d := by
    simp only [← sum_sub_distrib, ← sum_add_distrib]
    refine sum_congr rfl fun c _ => ?_
    rw [show ∑ d ∈ range n, A c d * (f d - x d) = (∑ d ∈ range n, A c d * f d) - ∑ d ∈ range n, A c d * x d by
      rw [← sum_sub_distrib]; exact sum_congr rfl fun d _ => mul_sub _ _ _]
    ring
  rw [e3, e1 f, e1 x, e2]
  ring

/-- The integrand of the right-hand side. -/
noncomputable def loadDens (g : V3 → ℝ) (c : Nat) (a : Addr) (s : SurfPt) : ℝ :=
  g s.f * ‖cross3 s.dx s.dy‖ * valueAt ⟨t, p, geo, T⟩ (unitDofs c) a s.xi

include hP hsm ht in
theorem data_cont (g : V3 → ℝ) (hg : SmoothData P geo g) (a : Addr) (ha : IsNode P M a) :
    ContinuousOn (fun x => g (elementPoint t geo a x).f) {x | ClosedSquare x} := by
  have cf : ContinuousOn (fun s => (elementPoint t geo a s).f) {x | ClosedSquare x} :=
    (by fun_prop : Continuous fun q : V3 × V3 × V3 => q.1).comp_continuousOn (parts_cont near corner P M hP geo hsm t ht a ha)
  intro x hx
  obtain ⟨n1, n2⟩ := node_square near corner P M hP t ht M le_rfl a ha x hx
  exact ContinuousAt.comp_continuousWithinAt (f := fun x => (elementPoint t geo a x).f) (g := g) (hg _ n1 _ n2).continuousAt (cf x hx)

include hP hsm ht in
theorem load_cont (g : V3 → ℝ) (hg : SmoothData P geo g) (c : Nat) : Cont P M geo t (loadDens geo t p T g c) := fun a ha =>
  ((data_cont near corner P M hP geo hsm t ht g hg a ha).mul (cross_contOn near corner P M hP geo hsm t ht a ha)).mul (value_cont P M geo t p T (unitDofs c) a ha)

theorem load_eq (g : V3 → ℝ) (c : Nat) : galerkinLoad ⟨t, p, geo, T⟩ (leaves P M) g c = surfaceIntegral t geo (leaves P M) (loadDens geo t p T g c) := rfl

include hP hreg hsm ht in
/-- The energy is a quadratic function of the degrees of freedom. -/
theorem energy_eq (gr : (Nat → ℝ) → Addr → SurfPt → V3) (hgr : Gradients P M ⟨t, p, geo, T⟩ gr) (g : V3 → ℝ) (hg : SmoothData P geo g) (f : Nat → ℝ) :
    reactionEnergy ⟨t, p, geo, T⟩ (leaves P M) gr α β g f =
      (∑ c ∈ range T.cols, f c * ∑ d ∈ range T.cols, mat P M geo t p T α β c d * f d) -
        2 * ∑ c ∈ range T.cols, f c * galerkinLoad ⟨t, p, geo, T⟩ (leaves P M) g c := by
  have lc := load_cont near corner P M hP geo hsm t ht p T g hg
  have sc : Cont P M geo t fun a s => ∑ c ∈ range T.cols, f c * loadDens geo t p T g c a s := fun a ha =>
    continuousOn_finsetSum _ fun c _ => (lc c a ha).const_smul (f c)
  have e := integral_add P M geo t 1 (-2) _ _ (dens_cont near corner P M hP geo hreg hsm t ht p T α β f f) sc
  rw [integral_linear P M geo t _ f _ lc, form_expand near corner P M hP geo hreg hsm t ht p T α β f f] at e
  simp only [load_eq, mat]
  rw [one_mul, neg_mul, ← sub_eq_add_neg] at e
  rw [← e]
  refine SurfaceRate.surfaceIntegral_congr t geo _ _ _ fun a ha s hs => ?_
  have ex : ∑ c ∈ range T.cols, f c * loadDens geo t p T g c a (elementPoint t geo a s) =
      g (elementPoint t geo a s).f * ‖cross3 (elementPoint t geo a s).dx (elementPoint t geo a s).dy‖ * valueAt ⟨t, p, geo, T⟩ f a (elementPoint t geo a s).xi := by
    rw [value_expand geo t p T f, mul_sum]
    exact sum_congr rfl fun c _ => mul_left_comm _ _ _
  rw [ex]
  simp only [dens, form_eq near corner P M hP geo hreg t ht p T gr hgr f a (mem_leaves.1 ha) s hs, real_inner_self_eq_norm_sq]
  ring

/-- Computed matrices of local operators, with one constant for all junk and both parameters of the rules. -/
theorem local_rate (hP : 0 < P) (ht : initElementTree near corner P M = some t) (es : EigenSolver) (op : LocalOperator.Op)
    (D : Nat → Nat → Addr → SurfPt → ℝ) (h : MatrixAccurate es ⟨t, p, geo, T⟩ op D) :
    ∃ C : Nat → ℝ, (∀ κ, 0 ≤ C κ) ∧ ∀ (junk : Nat → ℝ) (i order j : Nat), i ≤ j → j ≤ order →
      ∃ A, LocalOperator.compute junk op ⟨t, p, geo, T⟩ (gaussSquare es order j) = some A ∧ A.rows = T.cols ∧ A.cols = T.cols ∧
        ∀ κ, ∀ c < T.cols, ∀ d < T.cols, |A.at' c d - surfaceIntegral t geo (leaves P M) (D c d)| ≤ C κ / ((i : ℝ) + 1) ^ κ := by
  obtain ⟨t', k1, -, k3, -, -, k6, -⟩ := tree_facts (K := ℝ) near corner P M hP
  obtain rfl : t = t' := Option.some.inj (ht.symm.trans k1)
  obtain ⟨els', l1, l2⟩ := h
  obtain rfl : leaves P M = els' := Option.some.inj ((elements_eq t P M hP k3 k6).symm.trans l1)
  choose Cl hCl using l2
  refine ⟨fun κ => max (Cl κ) 0, fun κ => le_max_right _ _, fun junk i order j hij hjo => ?_⟩
  obtain ⟨v, v1, v2, v3, -⟩ := hCl 0 order j hjo junk
  refine ⟨v, v1, v2, v3, fun κ c hcn d hdn => ?_⟩
  obtain ⟨w, w1, -, -, w4⟩ := hCl κ order j hjo junk
  obtain rfl : v = w := Option.some.inj (v1.symm.trans w1)
  exact (w4 c hcn d hdn).trans ((div_le_div_of_nonneg_right (le_max_left _ _) (by positivity)).trans (SingleLayer.rate_mono _ (le_max_right _ _) i j κ hij))

/-- The right-hand side. -/
theorem rhs_rate (hP : 0 < P) (ht : initElementTree near corner P M = some t) (es : EigenSolver) (form : LinearForm.Form ℝ) (D : EMat ℝ → Addr → SurfPt → ℝ)
    (h : LoadAccurate es ⟨t, p, geo, T⟩ form D) :
    ∃ C : Nat → ℝ, (∀ κ, 0 ≤ C κ) ∧ ∀ (junk : Nat → ℝ) (i order j : Nat), i ≤ j → j ≤ order →
      ∃ v, LinearForm.compute junk form ⟨t, p, geo, T⟩ (gaussSquare es order j) = some v ∧
        ∀ κ, ∀ c < T.cols, |v.at' c 0 - surfaceIntegral t geo (leaves P M) (D (unitVec T.cols c))| ≤ C κ / ((i : ℝ) + 1) ^ κ := by
  obtain ⟨t', k1, -, k3, -, -, k6, -⟩ := tree_facts (K := ℝ) near corner P M hP
  obtain rfl : t = t' := Option.some.inj (ht.symm.trans k1)
  obtain ⟨els', l1, l2⟩ := h
  obtain rfl : leaves P M = els' := Option.some.inj ((elements_eq t P M hP k3 k6).symm.trans l1)
  choose Cl hCl using l2
  refine ⟨fun κ => max (Cl κ) 0, fun κ => le_max_right _ _, fun junk i order j hij hjo => ?_⟩
  obtain ⟨v, v1, -⟩ := hCl 0 order j hjo junk
  refine ⟨v, v1, fun κ c hcn => ?_⟩
  obtain ⟨w, w1, -, -, w4⟩ := hCl κ order j hjo junk
  obtain rfl : v = w := Option.some.inj (v1.symm.trans w1)
  exact (w4 c hcn).trans ((div_le_div_of_nonneg_right (le_max_left _ _) (by positivity)).trans (SingleLayer.rate_mono _ (le_max_right _ _) i j κ hij))

/-- The ansatz functions are bounded. -/
theorem value_bound : ∃ V : ℝ, 0 ≤ V ∧ ∀ a, IsNode P M a → ∀ s, ClosedSquare s → ∀ c < T.cols, |valueAt ⟨t, p, geo, T⟩ (unitDofs c) a s| ≤ V := by
  have cpt : IsCompact {x : ℝ × ℝ | ClosedSquare x} := by
    convert isCompact_Icc (a := ((0, 0) : ℝ × ℝ)) (b := (1, 1)) using 1
    ext x
    simp only [Set.mem_ofPred_eq, ClosedSquare, Set.mem_Icc, Prod.le_def]
    tauto
  have b : ∀ (a : Addr) (c : Nat), ∃ W, IsNode P M a → ∀ s, ClosedSquare s → |valueAt ⟨t, p, geo, T⟩ (unitDofs c) a s| ≤ W := fun a c => by
    by_cases ha : IsNode P M a
    · obtain ⟨W, hW⟩ := cpt.exists_bound_of_continuousOn (value_cont P M geo t p T (unitDofs c) a ha)
      exact ⟨W, fun _ s hs => hW s hs⟩
    · exact ⟨0, fun h => absurd h ha⟩
  choose W hW using b
  refine ⟨∑ a ∈ (leaves P M).toFinset, ∑ c ∈ range T.cols, |W a c|, sum_nonneg fun _ _ => sum_nonneg fun _ _ => abs_nonneg _, fun a ha s hs c hcn => ?_⟩
  refine (hW a c ha s hs).trans ((le_abs_self _).trans ?_)
  refine (single_le_sum (f := fun c => |W a c|) (fun _ _ => abs_nonneg _) (mem_range.2 hcn)).trans ?_
  exact single_le_sum (f := fun a => ∑ c ∈ range T.cols, |W a c|) (fun _ _ => sum_nonneg fun _ _ => abs_nonneg _) (List.mem_toFinset.2 (mem_leaves.2 ha))

include hP hreg hsm ht in
/-- The computed systems converge. -/
theorem computes (hind : ∀ f : EMat ℝ, VanishesInside P M ⟨t, p, geo, T⟩ f → ∀ c < T.cols, f.at' c 0 = 0) (hα : 0 < α) (hβ : 0 ≤ β)
    (es : EigenSolver) (hes : SolverCorrect es) (hT : T.rows = 1 * ((p + 1) * (p + 1) * t.nElements)) (g : V3 → ℝ) (hg : SmoothData P geo g)
    (x : Nat → ℝ) (hx : Solves T.cols (mat P M geo t p T α β) x (galerkinLoad ⟨t, p, geo, T⟩ (leaves P M) g)) :
    ComputesReaction es P M ⟨t, p, geo, T⟩ g α β x := by
  set n := T.cols with hn
  have pd := mat_pos near corner P M hP geo hreg hsm t ht p T α β hind hα hβ
  obtain ⟨Ca, Ca0, hCa⟩ := local_rate near corner P M geo t p T hP ht es _ _ (C90_mass es hes near corner P M hP ⟨t, p, geo, T⟩ ht hT hreg hsm)
  obtain ⟨Ck, Ck0, hCk⟩ := local_rate near corner P M geo t p T hP ht es _ _ (C90_laplace_beltrami es hes near corner P M hP ⟨t, p, geo, T⟩ ht hT hreg hsm
    (fun c => grad t p T (unitDofs c)) fun c _ a s ha hs => gradients_exist near corner P M hP geo hreg t ht p T (unitDofs c) a s ha hs)
  obtain ⟨Cv, Cv0, hCv⟩ := rhs_rate near corner P M geo t p T hP ht es _ _ (((C90_load es hes near corner P M hP ⟨t, p, geo, T⟩ ht hreg hsm).1 hT).1 g hg)
  obtain ⟨V, V0, hV⟩ := value_bound P M geo t p T
  have split : ∀ c d, mat P M geo t p T α β c d = α * surfaceIntegral t geo (leaves P M) (dens geo t p T 1 0 (unitDofs c) (unitDofs d)) +
      β * surfaceIntegral t geo (leaves P M) (dens geo t p T 0 1 (unitDofs c) (unitDofs d)) := fun c d => by
    rw [← integral_add P M geo t α β _ _ (dens_cont near corner P M hP geo hreg hsm t ht p T 1 0 _ _) (dens_cont near corner P M hP geo hreg hsm t ht p T 0 1 _ _)]
    refine congrArg _ (funext fun a => funext fun s => ?_)
    unfold dens
    ring
  obtain ⟨ε0, he0, Ks, hKs, stab⟩ := Galerkin.stable n _ pd x _ hx
  let E : Nat → ℝ := fun κ => α * Ca κ + β * Ck κ + Cv κ
  have E0 : ∀ κ, 0 ≤ E κ := fun κ => add_nonneg (add_nonneg (mul_nonneg hα.le (Ca0 κ)) (mul_nonneg hβ (Ck0 κ))) (Cv0 κ)
  obtain ⟨N, hN⟩ := exists_nat_gt (E 1 / ε0)
  refine ⟨N, fun κ => Ks * E κ * (1 + n * V), fun i hi o1 j1 o2 j2 o3 j3 a1 a2 b1 b2 c1 c2 junk1 junk2 junk3 => ?_⟩
  obtain ⟨Ma, A1, A2, A3, A4⟩ := hCa junk1 i o1 j1 a1 a2
  obtain ⟨K, B1, B2, B3, B4⟩ := hCk junk2 i o2 j2 b1 b2
  obtain ⟨v, D1, D2⟩ := hCv junk3 i o3 j3 c1 c2
  refine ⟨Ma, K, v, A1, A2, A3, B1, B2, B3, D1, ?_⟩
  have i0 : (0 : ℝ) < (i : ℝ) + 1 := by positivity
  have i1 : ∀ κ, (0 : ℝ) < ((i : ℝ) + 1) ^ κ := fun κ => by positivity
  have small : ∀ κ, min (E κ / ((i : ℝ) + 1) ^ κ) (E 1 / ((i : ℝ) + 1) ^ 1) ≤ ε0 := fun κ => by
    refine (min_le_right _ _).trans ?_
    rw [pow_one, div_le_iff₀ i0]
    rw [div_lt_iff₀ he0] at hN
    have : (N : ℝ) ≤ i := Nat.cast_le.2 hi
    nlinarith
  have mt : ∀ κ, ∀ c < n, ∀ d < n, |(α * Ma.at' c d + β * K.at' c d) - mat P M geo t p T α β c d| ≤ E κ / ((i : ℝ) + 1) ^ κ := fun κ c hcn d hdn => by
    have h1 := A4 κ c hcn d hdn
    have h2 := B4 κ c hcn d hdn
    rw [show surfaceIntegral t geo (leaves P M) (fun a p_1 => ‖cross3 p_1.dx p_1.dy‖ *
        discreteFunction T (unitVec T.cols c) t.nElements p 0 (t.id a) (getH t a) p_1.xi * discreteFunction T (unitVec T.cols d) t.nElements p 0 (t.id a) (getH t a) p_1.xi) =
      surfaceIntegral t geo (leaves P M) (dens geo t p T 1 0 (unitDofs c) (unitDofs d)) from congrArg _ (funext fun a => funext fun s => by
        unfold dens
        rw [one_mul, zero_mul, add_zero, mul_assoc]
        rfl)] at h1
    rw [show surfaceIntegral t geo (leaves P M) (fun a p_1 => ‖cross3 p_1.dx p_1.dy‖ * inner ℝ (grad t p T (unitDofs c) a p_1) (grad t p T (unitDofs d) a p_1)) =
      surfaceIntegral t geo (leaves P M) (dens geo t p T 0 1 (unitDofs c) (unitDofs d)) from congrArg _ (funext fun a => funext fun s => by
        unfold dens
        rw [one_mul, zero_mul, zero_add])] at h2
    rw [split]
    set m1 := surfaceIntegral t geo (leaves P M) (dens geo t p T 1 0 (unitDofs c) (unitDofs d))
    set m2 := surfaceIntegral t geo (leaves P M) (dens geo t p T 0 1 (unitDofs c) (unitDofs d))
    rw [show α * Ma.at' c d + β * K.at' c d - (α * m1 + β * m2) = α * (Ma.at' c d - m1) + β * (K.at' c d - m2) by ring]
    refine (abs_add_le _ _).trans ?_
    rw [abs_mul, abs_mul, abs_of_pos hα, abs_of_nonneg hβ]
    have h3 := mul_le_mul_of_nonneg_left h1 hα.le
    have h4 := mul_le_mul_of_nonneg_left h2 hβ
    have h5 : 0 ≤ Cv κ / ((i : ℝ) + 1) ^ κ := div_nonneg (Cv0 κ) (i1 κ).le
    have h6 : E κ / ((i : ℝ) + 1) ^ κ = α * (Ca κ / ((i : ℝ) + 1) ^ κ) + β * (Ck κ / ((i : ℝ) + 1) ^ κ) + Cv κ / ((i : ℝ) + 1) ^ κ := by
      simp only [E]; ring
    rw [h6]
    linarith
  have rh : ∀ κ, ∀ c < n, |v.at' c 0 - galerkinLoad ⟨t, p, geo, T⟩ (leaves P M) g c| ≤ E κ / ((i : ℝ) + 1) ^ κ := fun κ c hcn =>
    (D2 κ c hcn).trans (div_le_div_of_nonneg_right (by
      simp only [E]
      linarith [mul_nonneg hα.le (Ca0 κ), mul_nonneg hβ (Ck0 κ)]) (i1 κ).le)
  have st := fun κ => stab (fun c d => α * Ma.at' c d + β * K.at' c d) _ (small κ) fun c hcn d hdn => le_min (mt κ c hcn d hdn) (mt 1 c hcn d hdn)
  obtain ⟨pd', uniq, -⟩ := st 0
  obtain ⟨y, y1, y2⟩ := uniq fun c => v.at' c 0
  refine ⟨pd', y, y1, y2, fun κ => ?_⟩
  have err : ∀ c < n, |y c - x c| ≤ Ks * E κ / ((i : ℝ) + 1) ^ κ := fun c hcn => by
    refine ((st κ).2.2 _ y y1 (fun c hcn => le_min (rh κ c hcn) (rh 1 c hcn)) c hcn).trans ?_
    rw [mul_div_assoc]
    exact mul_le_mul_of_nonneg_left (min_le_left _ _) hKs
  have k0 : 0 ≤ Ks * E κ / ((i : ℝ) + 1) ^ κ := div_nonneg (mul_nonneg hKs (E0 κ)) (i1 κ).le
  have nV : 0 ≤ (n : ℝ) * V := by positivity
  have e1 : Ks * E κ * (1 + n * V) / ((i : ℝ) + 1) ^ κ = Ks * E κ / ((i : ℝ) + 1) ^ κ * (1 + n * V) := by ring
  simp only [e1]
  refine ⟨fun c hcn => (err c hcn).trans (by nlinarith), fun a ha s hs => ?_⟩
  rw [value_expand geo t p T y, value_expand geo t p T x, ← sum_sub_distrib]
  refine (abs_sum_le_sum_abs _ _).trans ((sum_le_sum (g := fun _ => Ks * E κ / ((i : ℝ) + 1) ^ κ * V) fun c hcc => ?_).trans ?_)
  · rw [← sub_mul, abs_mul]
    exact mul_le_mul (err c (mem_range.1 hcc)) (hV a ha s hs c (mem_range.1 hcc)) (abs_nonneg _) k0
  · rw [sum_const, card_range, nsmul_eq_mul, ← hn]
    nlinarith

include hP hreg hsm ht in
/-- The Galerkin system and the minimum of the energy. -/
theorem system (hind : ∀ f : EMat ℝ, VanishesInside P M ⟨t, p, geo, T⟩ f → ∀ c < T.cols, f.at' c 0 = 0) (hα : 0 < α) (hβ : 0 ≤ β)
    (es : EigenSolver) (hes : SolverCorrect es) (hT : T.rows = 1 * ((p + 1) * (p + 1) * t.nElements)) (g : V3 → ℝ) (hg : SmoothData P geo g) :
    SolvesReaction es P M ⟨t, p, geo, T⟩ g α β := by
  obtain ⟨t', k1, -, k3, -, -, k6, -⟩ := tree_facts (K := ℝ) near corner P M hP
  obtain rfl : t = t' := Option.some.inj (ht.symm.trans k1)
  refine ⟨leaves P M, elements_eq t P M hP k3 k6, ⟨_, gradients_exist near corner P M hP geo hreg t ht p T⟩, fun gr hgr => ?_⟩
  have eA : (fun c d => reactionForm ⟨t, p, geo, T⟩ (leaves P M) gr α β (unitDofs c) (unitDofs d)) = mat P M geo t p T α β :=
    funext fun c => funext fun d => form_dens near corner P M hP geo hreg t ht p T α β gr hgr _ _
  simp only [eA]
  have pd := mat_pos near corner P M hP geo hreg hsm t ht p T α β hind hα hβ
  obtain ⟨x, x1, x2⟩ := WellPosed.solvable T.cols (mat P M geo t p T α β) (fun f hf c hcn => by
    by_contra h
    have := pd f ⟨c, hcn, h⟩
    rw [sum_eq_zero fun c hc => by rw [hf c (mem_range.1 hc), mul_zero]] at this
    exact lt_irrefl 0 this) (galerkinLoad ⟨t, p, geo, T⟩ (leaves P M) g)
  refine ⟨pd, x, x1, x2, fun f => ?_, computes near corner P M hP geo hreg hsm t ht p T α β hind hα hβ es hes hT g hg x x1⟩
  have q := quadratic T.cols (mat P M geo t p T α β) (fun c d => by unfold mat; rw [dens_symm]) x _ x1 f
  have en := energy_eq near corner P M hP geo hreg hsm t ht p T α β gr hgr g hg
  rw [← en f, ← en x] at q
  have pos : (∃ c < T.cols, f c - x c ≠ 0) → reactionEnergy ⟨t, p, geo, T⟩ (leaves P M) gr α β g x < reactionEnergy ⟨t, p, geo, T⟩ (leaves P M) gr α β g f :=
    fun h => by
      have := pd (fun c => f c - x c) h
      linarith
  by_cases h : ∃ c < T.cols, f c - x c ≠ 0
  · exact ⟨(pos h).le, fun e => absurd e (pos h).ne'⟩
  · push Not at h
    refine ⟨?_, fun _ c hcn => sub_eq_zero.1 (h c hcn)⟩
    rw [sum_eq_zero fun c hc => by rw [h c (mem_range.1 hc), zero_mul]] at q
    linarith

include hP hreg hsm ht in
/-- The squared distance to the data is the energy up to a constant. -/
theorem distance_eq (g : V3 → ℝ) (hg : SmoothData P geo g) (f : Nat → ℝ) :
    squaredDistance ⟨t, p, geo, T⟩ (leaves P M) g f = reactionEnergy ⟨t, p, geo, T⟩ (leaves P M) (grad t p T) 1 0 g f +
      surfaceIntegral t geo (leaves P M) fun _ s => ‖cross3 s.dx s.dy‖ * g s.f ^ 2 := by
  have cr := cross_contOn near corner P M hP geo hsm t ht
  have cg := data_cont near corner P M hP geo hsm t ht g hg
  have e := integral_add P M geo t 1 1 (fun a s => ‖cross3 s.dx s.dy‖ * (1 * valueAt ⟨t, p, geo, T⟩ f a s.xi ^ 2 + 0 * ‖grad t p T f a s‖ ^ 2 -
      2 * (g s.f * valueAt ⟨t, p, geo, T⟩ f a s.xi))) (fun _ s => ‖cross3 s.dx s.dy‖ * g s.f ^ 2) (fun a ha => by
      have cv := value_cont P M geo t p T f a ha
      exact (cr a ha).mul (((continuousOn_const.mul (cv.pow 2)).add (continuousOn_const.mul
        ((grad_cont near corner P M hP geo hreg hsm t ht p T f a ha).norm.pow 2))).sub (continuousOn_const.mul ((cg a ha).mul cv))))
    (fun a ha => (cr a ha).mul ((cg a ha).pow 2))
  rw [one_mul, one_mul] at e
  refine Eq.trans ?_ e
  refine congrArg _ (funext fun a => funext fun s => ?_)
  ring

include hP hreg hsm ht in
theorem projection (hind : ∀ f : EMat ℝ, VanishesInside P M ⟨t, p, geo, T⟩ f → ∀ c < T.cols, f.at' c 0 = 0)
    (es : EigenSolver) (hes : SolverCorrect es) (hT : T.rows = 1 * ((p + 1) * (p + 1) * t.nElements)) (g : V3 → ℝ) (hg : SmoothData P geo g) :
    ProjectsData es P M ⟨t, p, geo, T⟩ g := by
  obtain ⟨t', k1, -, k3, -, -, k6, -⟩ := tree_facts (K := ℝ) near corner P M hP
  obtain rfl : t = t' := Option.some.inj (ht.symm.trans k1)
  obtain ⟨els, h1, -, h2⟩ := system near corner P M hP geo hreg hsm t ht p T 1 0 hind one_pos le_rfl es hes hT g hg
  obtain rfl : leaves P M = els := Option.some.inj ((elements_eq t P M hP k3 k6).symm.trans h1)
  obtain ⟨-, x, -, -, x3, x4⟩ := h2 (grad t p T) (gradients_exist near corner P M hP geo hreg t ht p T)
  have e := distance_eq near corner P M hP geo hreg hsm t ht p T g hg
  refine ⟨leaves P M, h1, x, fun f => ?_, x4⟩
  rw [e f, e x]
  exact ⟨by linarith [(x3 f).1], fun h => (x3 f).2 (by linarith)⟩

end
end Reaction
open Reaction

section
variable (near : V3 → V3 → Bool) (corner : Nat → Nat → V3) (P M : Nat) (hP : 0 < P) (geo : Nat → ℝ × ℝ → V3 × V3 × V3)
    (hreg : RegularPatches P geo) (hsm : SmoothPatches P geo) (t : Mesh.Tree ℝ) (ht : initElementTree near corner P M = some t)
    (junkT : Nat → ℝ) (junkM : Nat → Nat → ℝ) (solve : Nat → (Nat → Nat → ℝ) → (Nat → ℝ) → Nat → ℝ) (hs : SolvesSystems solve) (p rep : Nat)
    (es : EigenSolver) (hes : SolverCorrect es) (g : V3 → ℝ) (hg : SmoothData P geo g) (T : EMat ℝ)
include hP hreg hsm ht hs hes hg

/-- C93: the equation `-β Δu + α u = g` and the L2 projection with continuous ansatz functions. -/
theorem C93_continuous (hc : ConformingPatches near corner P) (ho : OrientedPatches corner P) (hp0 : 0 < p) (hp : p ≤ 4) (hrep : 1 ≤ rep) (hrp : rep ≤ p)
    (hT : Ansatz.transformationCont junkT junkM solve t p M P rep = some T) :
    ProjectsData es P M ⟨t, p, geo, T⟩ g ∧ ∀ α β : ℝ, 0 < α → 0 ≤ β → SolvesReaction es P M ⟨t, p, geo, T⟩ g α β := by
  obtain ⟨u, g1, g2, g3, -⟩ := tree_facts (K := ℝ) near corner P M hP
  obtain rfl : u = t := Option.some.inj (g1.symm.trans ht)
  have hT' : T.rows = 1 * ((p + 1) * (p + 1) * u.nElements) := by
    rw [WellPosed.cont_rows near corner junkT junkM solve hs p M P rep hP hp0 (by omega) hrep hrp hc ho u ht T hT, g3]; ring
  have ind : ∀ f : EMat ℝ, VanishesInside P M ⟨u, p, geo, T⟩ f → ∀ c < T.cols, f.at' c 0 = 0 := fun f hf => by
    refine C83_continuous near corner junkT junkM solve hs p M P rep hP hp0 hp hrep hrp hc ho u ht T hT f fun a ha s s1 s2 s3 s4 => ?_
    have := hf a ha s s1 s2 s3 s4
    simp only at this
    obtain ⟨-, l, -⟩ := g2 M le_rfl a (mem_leaves.2 ha)
    rw [WellPosed.ofReal_self, ← g3, ← show getH u a = 1 / 2 ^ M by unfold getH; rw [l, ha.2.1]]
    exact this
  exact ⟨projection near corner P M hP geo hreg hsm u ht p T ind es hes hT' g hg,
    fun α β hα hβ => system near corner P M hP geo hreg hsm u ht p T α β ind hα hβ es hes hT' g hg⟩

/-- C93: the L2 projection with discontinuous ansatz functions. -/
theorem C93_discontinuous (hp : p ≤ 4) (hrep : 1 ≤ rep) (hT : Ansatz.transformationDisc junkT junkM solve t p M P rep = some T) :
    ProjectsData es P M ⟨t, p, geo, T⟩ g := by
  obtain ⟨A, T1, c1, c2, c3, c4, c5⟩ := C64_discontinuous near corner junkT junkM solve hs p M P rep hP (by omega) hrep t ht
  obtain rfl : T1 = T := Option.some.inj (c2.symm.trans hT)
  obtain ⟨A', h1, h2, -⟩ := disc_matrix near corner junkT junkM solve hs p M P rep hP (by omega) hrep t ht
  obtain rfl : A' = A := Option.some.inj (h1.symm.trans c1)
  obtain ⟨u, g1, g2, g3, -⟩ := tree_facts (K := ℝ) near corner P M hP
  obtain rfl : u = t := Option.some.inj (g1.symm.trans ht)
  have hT' : T1.rows = 1 * ((p + 1) * (p + 1) * u.nElements) := by rw [c3, h2, g3]; ring
  have ind : ∀ f : EMat ℝ, VanishesInside P M ⟨u, p, geo, T1⟩ f → ∀ c < T1.cols, f.at' c 0 = 0 := fun f hf => by
    refine C83_discontinuous near corner junkT junkM solve hs p M P rep hP hp hrep u ht T1 hT f fun a ha s s1 s2 s3 s4 => ?_
    have := hf a ha s s1 s2 s3 s4
    simp only at this
    obtain ⟨-, e, -⟩ := g2 M le_rfl a (mem_leaves.2 ha)
    rw [WellPosed.ofReal_self, ← g3, ← show getH u a = 1 / 2 ^ M by unfold getH; rw [e, ha.2.1]]
    exact this
  exact projection near corner P M hP geo hreg hsm u ht p T1 ind es hes hT' g hg

end

end Bembel.Props
