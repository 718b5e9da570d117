import Verif.Lemmas.SurfaceRate
import Verif.Lemmas.SmoothKernel
import Verif.Lemmas.SingularElement
import Mathlib.Analysis.RCLike.Lemmas
import Verif.Props.Potential
import Verif.Props.LinearForm
import Verif.Props.LocalOperator
import Verif.Props.LaplaceBeltrami
/-! # C90: accuracy of potentials, right-hand sides and mass matrices on smooth surfaces -/

namespace Bembel.Props
open Finset Bembel.Mesh Bembel.Spec Bembel.FunctionEval Bembel.Potential Bembel.SurfaceRate Bembel.Interpol
open scoped ContDiff

namespace SurfaceRate
variable {R : Type} [RCLike R]

theorem map_smooth {E : Type} [NormedAddCommGroup E] [NormedSpace ℝ E] {f : E → ℝ} {x : E} (hf : ContDiffAt ℝ ∞ f x) :
    ContDiffAt ℝ ∞ (fun y => algebraMap ℝ R (f y)) x := by
  simp only [RCLike.algebraMap_eq_ofReal]
  exact (RCLike.ofRealCLM (K := R)).contDiff.contDiffAt.comp x hf

theorem fun_smooth (T f : EMat R) (nE P d n : Nat) (h : ℝ) : ContDiff ℝ ∞ (discreteFunction T f nE P d n h) := by
  unfold discreteFunction
  refine contDiff_const.mul (ContDiff.sum fun i _ => contDiff_const.mul ?_)
  exact contDiff_iff_contDiffAt.2 fun s => map_smooth (Smooth.shape_smooth P i).contDiffAt

theorem dx_smooth (T f : EMat R) (nE P d n : Nat) (h : ℝ) : ContDiff ℝ ∞ (discreteDx T f nE P d n h) := by
  unfold discreteDx
  refine contDiff_const.mul (ContDiff.sum fun i _ => contDiff_const.mul ?_)
  exact contDiff_iff_contDiffAt.2 fun s => map_smooth (Smooth.shapeDx_smooth P i).contDiffAt

theorem dy_smooth (T f : EMat R) (nE P d n : Nat) (h : ℝ) : ContDiff ℝ ∞ (discreteDy T f nE P d n h) := by
  unfold discreteDy
  refine contDiff_const.mul (ContDiff.sum fun i _ => contDiff_const.mul ?_)
  exact contDiff_iff_contDiffAt.2 fun s => map_smooth (Smooth.shapeDy_smooth P i).contDiffAt

theorem div_smooth (T f : EMat R) (nE P n : Nat) (h : ℝ) : ContDiff ℝ ∞ (discreteDiv T f nE P n h) := by
  unfold discreteDiv
  refine contDiff_const.mul (ContDiff.sum fun i _ => (contDiff_const.mul ?_).add (contDiff_const.mul ?_))
  · exact contDiff_iff_contDiffAt.2 fun s => map_smooth (Smooth.shapeDx_smooth P i).contDiffAt
  · exact contDiff_iff_contDiffAt.2 fun s => map_smooth (Smooth.shapeDy_smooth P i).contDiffAt

section
variable {X : Type} [NormedAddCommGroup X] [NormedSpace ℝ X] (q : X × (ℝ × ℝ) × V3 × V3 × V3)
theorem xs : ContDiffAt ℝ ∞ (fun q : X × (ℝ × ℝ) × V3 × V3 × V3 => q.1) q := by fun_prop
theorem ss : ContDiffAt ℝ ∞ (fun q : X × (ℝ × ℝ) × V3 × V3 × V3 => q.2.1) q := by fun_prop
theorem ps : ContDiffAt ℝ ∞ (fun q : X × (ℝ × ℝ) × V3 × V3 × V3 => q.2.2.1) q := by fun_prop
theorem us : ContDiffAt ℝ ∞ (fun q : X × (ℝ × ℝ) × V3 × V3 × V3 => q.2.2.2.1) q := by fun_prop
theorem vs : ContDiffAt ℝ ∞ (fun q : X × (ℝ × ℝ) × V3 × V3 × V3 => q.2.2.2.2) q := by fun_prop
theorem ns : ContDiffAt ℝ ∞ (fun q : X × (ℝ × ℝ) × V3 × V3 × V3 => cross3 q.2.2.2.1 q.2.2.2.2) q := cross_smooth (us q) (vs q)
theorem areas (h : cross3 q.2.2.2.1 q.2.2.2.2 ≠ 0) :
    ContDiffAt ℝ ∞ (fun q : X × (ℝ × ℝ) × V3 × V3 × V3 => ‖cross3 q.2.2.2.1 q.2.2.2.2‖) q := (ns q).norm ℝ h
theorem fs {f : ℝ × ℝ → R} (hf : ContDiff ℝ ∞ f) : ContDiffAt ℝ ∞ (fun q : X × (ℝ × ℝ) × V3 × V3 × V3 => f q.2.1) q :=
  hf.contDiffAt.comp q (ss q)
theorem comp3 {f : X × (ℝ × ℝ) × V3 × V3 × V3 → V3} (hf : ContDiffAt ℝ ∞ f q) (k : Fin 3) : ContDiffAt ℝ ∞ (fun q => f q k) q :=
  (contDiffAt_euclidean.1 hf) k
theorem fields (T f : EMat R) (nE P n : Nat) (h : ℝ) (k : Fin 3) : ContDiffAt ℝ ∞ (fun q : X × (ℝ × ℝ) × V3 × V3 × V3 =>
    discreteField T f nE P n h q.2.1 q.2.2.2.1 q.2.2.2.2 k) q := by
  unfold discreteField
  exact ((map_smooth (comp3 q (us q) k)).mul (fs q (fun_smooth T f nE P 0 n h))).add
    ((map_smooth (comp3 q (vs q) k)).mul (fs q (fun_smooth T f nE P 1 n h)))
end

theorem accurate_of (es : EigenSolver) (hes : SolverCorrect es) {V : Type} (near : V → V → Bool) (corner : Nat → Nat → V) (np M : Nat)
    (hP : 0 < np) (vd : Nat) (space : Space R) (ht : initElementTree near corner np M = some space.t)
    (hreg : RegularPatches np space.geo) (hsm : SmoothPatches np space.geo) (K : Set V3) (hK : IsCompact K) (hoff : OffSurface K np space.geo)
    (pot : Pot R) (density : EMat R → V3 → Addr → SurfPt → Fin pot.od → R)
    (hquad : ∀ (e0 : Evaluator R) (f : EMat R), f.rows = space.trans.cols → f.cols = 1 → ∀ junk : Nat → R,
      ∃ e els, initWith vd e0 space f = some e ∧ elements space.t = some els ∧
        ∀ (Q : Cubature ℝ) (n : Nat) (x : Fin n → V3) (S : Omp.Schedule space.t.nElements),
          Potential.evaluate junk pot e Q x S.sched = some fun i k => surfaceQuad space.t space.geo Q els fun a p => density f (x i) a p k)
    (hs : ∀ f k a, ∀ q : V3 × (ℝ × ℝ) × V3 × V3 × V3, q.1 ∈ K ∧ (∃ p < np, ∃ s, ClosedSquare s ∧ q.2.2.1 = (space.geo p s).1) →
      q.1 ≠ q.2.2.1 → cross3 q.2.2.2.1 q.2.2.2.2 ≠ 0 → ContDiffAt ℝ ∞
      (fun q : V3 × (ℝ × ℝ) × V3 × V3 × V3 => density f q.1 a ⟨q.2.1, 1, q.2.2.1, q.2.2.2.1, q.2.2.2.2⟩ k) q) :
    PotentialAccurate es vd space pot density K := by
  intro e0 f hf hc junk
  obtain ⟨e, els, h1, h2, h3⟩ := hquad e0 f hf hc junk
  refine ⟨e, els, h1, h2, fun κ => ?_⟩
  have key := fun k => surface_rate es hes near corner np M hP space.t ht space.geo hsm K hK (fun x a p => density f x a p k)
    (fun a ha x hx s hs' => by
      have hsq := node_square near corner np M hP space.t ht M le_rfl a ha s hs'
      exact hs f k a _ ⟨hx, _, hsq.1, _, hsq.2, rfl⟩ (fun h => hoff _ hsq.1 _ hsq.2 (by rw [← h]; exact hx)) (hreg _ hsq.1 _ hsq.2)) els h2 κ
  choose C C0 hC using key
  refine ⟨∑ k, C k, fun order i hi n x hx S => ⟨_, h3 _ n x S, fun j k => ?_⟩⟩
  refine (hC k (x j) (hx j) order i hi).trans ?_
  gcongr
  exact single_le_sum (f := C) (fun k _ => C0 k) (mem_univ k)

theorem load_of (es : EigenSolver) (hes : SolverCorrect es) {V : Type} (near : V → V → Bool) (corner : Nat → Nat → V) (np M : Nat)
    (hP : 0 < np) (space : Space R) (ht : initElementTree near corner np M = some space.t)
    (hreg : RegularPatches np space.geo) (hsm : SmoothPatches np space.geo)
    (form : LinearForm.Form R) (density : EMat R → Addr → SurfPt → R)
    (hquad : ∀ (junk : Nat → R) (Q : Cubature ℝ), ∃ els v, elements space.t = some els ∧ LinearForm.compute junk form space Q = some v ∧
        v.rows = space.trans.cols ∧ v.cols = 1 ∧ ∀ c < space.trans.cols, v.at' c 0 = surfaceQuad space.t space.geo Q els fun a p =>
          density (unitVec space.trans.cols c) a p)
    (hs : ∀ f a, ∀ q : ℝ × (ℝ × ℝ) × V3 × V3 × V3, (∃ p < np, ∃ s, ClosedSquare s ∧ q.2.2.1 = (space.geo p s).1) →
      cross3 q.2.2.2.1 q.2.2.2.2 ≠ 0 → ContDiffAt ℝ ∞
      (fun q : ℝ × (ℝ × ℝ) × V3 × V3 × V3 => density f a ⟨q.2.1, 1, q.2.2.1, q.2.2.2.1, q.2.2.2.2⟩) q) :
    LoadAccurate es space form density := by
  obtain ⟨els, _, h2, -⟩ := hquad (fun _ => 0) ⟨0, 0, 0⟩
  refine ⟨els, h2, fun κ => ?_⟩
  have key := fun c => surface_rate es hes near corner np M hP space.t ht space.geo hsm {(0 : ℝ)} isCompact_singleton
    (fun _ a p => density (unitVec space.trans.cols c) a p) (fun a ha x hx s hs' => by
      have hsq := node_square near corner np M hP space.t ht M le_rfl a ha s hs'
      exact hs _ a _ ⟨_, hsq.1, _, hsq.2, rfl⟩ (hreg _ hsq.1 _ hsq.2)) els h2 κ
  choose C C0 hC using key
  refine ⟨∑ c ∈ range space.trans.cols, C c, fun order i hi junk => ?_⟩
  obtain ⟨els', v, k1, k2, k3, k4, k5⟩ := hquad junk (gaussSquare es order i)
  obtain rfl : els = els' := Option.some.inj (h2.symm.trans k1)
  refine ⟨v, k2, k3, k4, fun c hc => ?_⟩
  rw [k5 c hc]
  refine (hC c 0 rfl order i hi).trans ?_
  gcongr
  exact single_le_sum (f := C) (fun k _ => C0 k) (mem_range.2 hc)

theorem matrix_of (es : EigenSolver) (hes : SolverCorrect es) {V : Type} (near : V → V → Bool) (corner : Nat → Nat → V) (np M : Nat)
    (hP : 0 < np) (space : Space ℝ) (ht : initElementTree near corner np M = some space.t)
    (hreg : RegularPatches np space.geo) (hsm : SmoothPatches np space.geo)
    (op : LocalOperator.Op) (density : Nat → Nat → Addr → SurfPt → ℝ)
    (hquad : ∀ (junk : Nat → ℝ) (Q : Cubature ℝ), (∀ j < Q.size, ClosedSquare (Q.xi j)) →
      ∃ els A, elements space.t = some els ∧ LocalOperator.compute junk op space Q = some A ∧
        A.rows = space.trans.cols ∧ A.cols = space.trans.cols ∧ ∀ c < space.trans.cols, ∀ d < space.trans.cols,
          A.at' c d = surfaceQuad space.t space.geo Q els fun a p => density c d a p)
    (hs : ∀ c d a, ∀ q : ℝ × (ℝ × ℝ) × V3 × V3 × V3, cross3 q.2.2.2.1 q.2.2.2.2 ≠ 0 → ContDiffAt ℝ ∞
      (fun q : ℝ × (ℝ × ℝ) × V3 × V3 × V3 => density c d a ⟨q.2.1, 1, q.2.2.1, q.2.2.2.1, q.2.2.2.2⟩) q) :
    MatrixAccurate es space op density := by
  obtain ⟨els, _, h2, -⟩ := hquad (fun _ => 0) ⟨0, 0, 0⟩ (fun j hj => absurd hj (Nat.not_lt_zero j))
  refine ⟨els, h2, fun κ => ?_⟩
  have key := fun c d => surface_rate es hes near corner np M hP space.t ht space.geo hsm {(0 : ℝ)} isCompact_singleton
    (fun _ a p => density c d a p) (fun a ha x hx s hs' => by
      have hsq := node_square near corner np M hP space.t ht M le_rfl a ha s hs'
      exact hs c d a _ (hreg _ hsq.1 _ hsq.2)) els h2 κ
  choose C C0 hC using key
  refine ⟨∑ c ∈ range space.trans.cols, ∑ d ∈ range space.trans.cols, C c d, fun order i hi junk => ?_⟩
  obtain ⟨els', A, k1, k2, k3, k4, k5⟩ := hquad junk (gaussSquare es order i) (Singular.gauss_closed es hes order i hi)
  obtain rfl : els = els' := Option.some.inj (h2.symm.trans k1)
  refine ⟨A, k2, k3, k4, fun c hc d hd => ?_⟩
  rw [k5 c hc d hd]
  refine (hC c d 0 rfl order i hi).trans ?_
  gcongr
  exact (single_le_sum (f := C c) (fun k _ => C0 c k) (mem_range.2 hd)).trans
    (single_le_sum (f := fun c => ∑ d ∈ range space.trans.cols, C c d) (fun c _ => sum_nonneg fun d _ => C0 c d) (mem_range.2 hc))

theorem normalized_smooth {E : Type} [NormedAddCommGroup E] [NormedSpace ℝ E] {f : E → V3} {x : E} (hf : ContDiffAt ℝ ∞ f x) (h : f x ≠ 0) :
    ContDiffAt ℝ ∞ (fun y => normalized (f y)) x := by
  have e : (fun y => (1 / ‖f y‖) • f y) = fun y => normalized (f y) := by
    funext y
    unfold normalized
    split
    · rfl
    · rename_i h
      have : f y = 0 := norm_eq_zero.1 (le_antisymm (not_lt.1 h) (norm_nonneg _))
      rw [this, smul_zero]
  rw [← e]
  have d : ContDiffAt ℝ ∞ (fun y => 1 / ‖f y‖) x := contDiffAt_const.div (hf.norm ℝ h) (norm_ne_zero_iff.2 h)
  exact d.smul hf

theorem alg_smooth {E : Type} [NormedAddCommGroup E] [NormedSpace ℝ E] (cj : R →ₐ[ℝ] R) {f : E → R} {x : E} (hf : ContDiffAt ℝ ∞ f x) :
    ContDiffAt ℝ ∞ (fun y => cj (f y)) x :=
  (LinearMap.toContinuousLinearMap cj.toLinearMap).contDiff.contDiffAt.comp x hf

theorem surfaceIntegral_congr (t : Mesh.Tree ℝ) (geo : Nat → ℝ × ℝ → V3 × V3 × V3) (els : List Addr) (g g' : Addr → SurfPt → R)
    (h : ∀ a ∈ els, ∀ s, ClosedSquare s → g a (elementPoint t geo a s) = g' a (elementPoint t geo a s)) :
    surfaceIntegral t geo els g = surfaceIntegral t geo els g' := by
  unfold surfaceIntegral
  congr 1
  refine List.map_congr_left fun a ha => ?_
  rw [int_congr _ (fun x => ∫ y in (0 : ℝ)..1, g' a (elementPoint t geo a (x, y))) fun x hx => int_congr _ _ fun y hy => h a ha (x, y) ⟨hx.1, hx.2, hy.1, hy.2⟩]

end SurfaceRate
open SurfaceRate

/-- C90: the potentials of the library. -/
theorem C90_potentials {R : Type} [RCLike R] (es : EigenSolver) (hes : SolverCorrect es) {V : Type} (near : V → V → Bool) (corner : Nat → Nat → V)
    (np M : Nat) (hP : 0 < np) (space : Space R) (ht : initElementTree near corner np M = some space.t)
    (hT : space.trans.rows = 1 * ((space.P + 1) * (space.P + 1) * space.t.nElements))
    (hreg : RegularPatches np space.geo) (hsm : SmoothPatches np space.geo) (K : Set V3) (hK : IsCompact K) (hoff : OffSurface K np space.geo) :
    let u := fun (f : EMat R) (a : Addr) (p : SurfPt) =>
      discreteFunction space.trans f space.t.nElements space.P 0 (space.t.id a) (getH space.t a) p.xi
    PotentialAccurate es 1 space (singleLayerReal Kernel.laplace)
      (fun f x a p _ => algebraMap ℝ R (Kernel.laplace x p.f * ‖cross3 p.dx p.dy‖) * u f a p) K ∧
    PotentialAccurate es 1 space laplaceDL
      (fun f x a p _ => algebraMap ℝ R (Kernel.laplaceDL x p.f (cross3 p.dx p.dy)) * u f a p) K ∧
    PotentialAccurate es 1 space laplaceSLGrad
      (fun f x a p (k : Fin 3) => algebraMap ℝ R (Kernel.laplaceSLGrad x p.f k * ‖cross3 p.dx p.dy‖) * u f a p) K := by
  intro u
  refine ⟨?_, ?_, ?_⟩
  · refine accurate_of es hes near corner np M hP 1 space ht hreg hsm K hK hoff _ _
      (fun e0 f hf hc junk => C53_single_layer near corner np M hP e0 space ht hT f hf hc junk _) fun f k a q _ h1 h2 => ?_
    exact (map_smooth ((laplace_smooth (xs q) (ps q) h1).mul (areas q h2))).mul (fs q (fun_smooth _ _ _ _ _ _ _))
  · refine accurate_of es hes near corner np M hP 1 space ht hreg hsm K hK hoff _ _
      (fun e0 f hf hc junk => C53_laplace_double_layer near corner np M hP e0 space ht hT f hf hc junk) fun f k a q _ h1 h2 => ?_
    exact (map_smooth (laplaceDL_smooth (xs q) (ps q) (ns q) h1)).mul (fs q (fun_smooth _ _ _ _ _ _ _))
  · refine accurate_of es hes near corner np M hP 1 space ht hreg hsm K hK hoff _ _
      (fun e0 f hf hc junk => C53_laplace_gradient near corner np M hP e0 space ht hT f hf hc junk) fun f k a q _ h1 h2 => ?_
    have r := ((xs q).sub (ps q)).norm ℝ (sub_ne_zero.2 h1)
    have r0 := norm_ne_zero_iff.2 (sub_ne_zero.2 h1)
    refine (map_smooth (ContDiffAt.mul (comp3 q ?_ k) (areas q h2))).mul (fs q (fun_smooth _ _ _ _ _ _ _))
    unfold Kernel.laplaceSLGrad
    have e : ContDiffAt ℝ ∞ (fun q : V3 × (ℝ × ℝ) × V3 × V3 × V3 => 1 / (‖q.1 - q.2.2.1‖ * ‖q.1 - q.2.2.1‖ * ‖q.1 - q.2.2.1‖)) q :=
      contDiffAt_const.div ((r.mul r).mul r) (mul_ne_zero (mul_ne_zero r0 r0) r0)
    exact (contDiffAt_const (c := 1 / Real.pi)).smul ((contDiffAt_const (c := (1 / 4 : ℝ))).smul (e.smul ((xs q).sub (ps q)).neg))

/-- C90: single layer potentials with an arbitrary kernel that is smooth at the evaluation points and the points of the surface
(the periodic kernel of the homogenised Laplace potential, for example). -/
theorem C90_single_layer {R : Type} [RCLike R] (es : EigenSolver) (hes : SolverCorrect es) {V : Type} (near : V → V → Bool)
    (corner : Nat → Nat → V) (np M : Nat) (hP : 0 < np) (space : Space R) (ht : initElementTree near corner np M = some space.t)
    (hT : space.trans.rows = 1 * ((space.P + 1) * (space.P + 1) * space.t.nElements))
    (hreg : RegularPatches np space.geo) (hsm : SmoothPatches np space.geo) (K : Set V3) (hK : IsCompact K) (hoff : OffSurface K np space.geo)
    (kernel : V3 → V3 → ℝ) (hk : ∀ x ∈ K, ∀ p < np, ∀ s, ClosedSquare s → ContDiffAt ℝ ∞ (fun z : V3 × V3 => kernel z.1 z.2) (x, (space.geo p s).1)) :
    PotentialAccurate es 1 space (singleLayerReal kernel)
      (fun f x a p _ => algebraMap ℝ R (kernel x p.f * ‖cross3 p.dx p.dy‖) *
        discreteFunction space.trans f space.t.nElements space.P 0 (space.t.id a) (getH space.t a) p.xi) K := by
  refine accurate_of es hes near corner np M hP 1 space ht hreg hsm K hK hoff _ _
    (fun e0 f hf hc junk => C53_single_layer near corner np M hP e0 space ht hT f hf hc junk _) fun f k a q hq h1 h2 => ?_
  obtain ⟨hx, p, hp, s, hs, e⟩ := hq
  have hz := hk _ hx p hp s hs
  rw [← e] at hz
  exact (map_smooth ((hz.comp (f := fun q : V3 × (ℝ × ℝ) × V3 × V3 × V3 => (q.1, q.2.2.1)) q ((xs q).prodMk (ps q))).mul (areas q h2))).mul
    (fs q (fun_smooth _ _ _ _ _ _ _))

/-- C90: the Helmholtz potentials. -/
theorem C90_helmholtz (es : EigenSolver) (hes : SolverCorrect es) {V : Type} (near : V → V → Bool) (corner : Nat → Nat → V)
    (np M : Nat) (hP : 0 < np) (space : Space ℂ) (ht : initElementTree near corner np M = some space.t)
    (hT : space.trans.rows = 1 * ((space.P + 1) * (space.P + 1) * space.t.nElements))
    (hreg : RegularPatches np space.geo) (hsm : SmoothPatches np space.geo) (K : Set V3) (hK : IsCompact K) (hoff : OffSurface K np space.geo)
    (k : ℂ) :
    let u := fun (f : EMat ℂ) (a : Addr) (p : SurfPt) =>
      discreteFunction space.trans f space.t.nElements space.P 0 (space.t.id a) (getH space.t a) p.xi
    PotentialAccurate es 1 space (helmholtzSL k)
      (fun f x a p _ => Kernel.helmholtz k x p.f * (‖cross3 p.dx p.dy‖ : ℂ) * u f a p) K ∧
    PotentialAccurate es 1 space (helmholtzDL k)
      (fun f x a p _ => Kernel.helmholtzDL k x p.f (cross3 p.dx p.dy) * u f a p) K := by
  intro u
  refine ⟨?_, ?_⟩
  · refine accurate_of es hes near corner np M hP 1 space ht hreg hsm K hK hoff _ _
      (fun e0 f hf hc junk => ?_) fun f _ a q _ h1 h2 => ?_
    · obtain ⟨e, els, a1, a2, a3⟩ := C53_helmholtz near corner np M hP e0 space ht hT f hf hc junk k
      exact ⟨e, els, a1, a2, fun Q n x S => (a3 Q n x S).1⟩
    · exact ((helmholtz_smooth k (xs q) (ps q) h1).mul (ofReal_smooth (areas q h2))).mul (fs q (fun_smooth _ _ _ _ _ _ _))
  · refine accurate_of es hes near corner np M hP 1 space ht hreg hsm K hK hoff _ _
      (fun e0 f hf hc junk => ?_) fun f _ a q _ h1 h2 => ?_
    · obtain ⟨e, els, a1, a2, a3⟩ := C53_helmholtz near corner np M hP e0 space ht hT f hf hc junk k
      exact ⟨e, els, a1, a2, fun Q n x S => (a3 Q n x S).2⟩
    · exact (helmholtzDL_smooth k (xs q) (ps q) (ns q) h1).mul (fs q (fun_smooth _ _ _ _ _ _ _))

/-- C90: the Maxwell potential. -/
theorem C90_maxwell (es : EigenSolver) (hes : SolverCorrect es) {V : Type} (near : V → V → Bool) (corner : Nat → Nat → V)
    (np M : Nat) (hP : 0 < np) (space : Space ℂ) (ht : initElementTree near corner np M = some space.t)
    (hT : space.trans.rows = 2 * ((space.P + 1) * (space.P + 1) * space.t.nElements))
    (hreg : RegularPatches np space.geo) (hsm : SmoothPatches np space.geo) (K : Set V3) (hK : IsCompact K) (hoff : OffSurface K np space.geo)
    (k : ℂ) :
    PotentialAccurate es 2 space (maxwellSL k)
      (fun f x a p (d : Fin 3) => Kernel.helmholtz k x p.f *
          discreteField space.trans f space.t.nElements space.P (space.t.id a) (getH space.t a) p.xi p.dx p.dy d +
        1 / k ^ 2 * Kernel.maxwellGrad k x p.f d *
          discreteDiv space.trans f space.t.nElements space.P (space.t.id a) (getH space.t a) p.xi) K := by
  refine accurate_of es hes near corner np M hP 2 space ht hreg hsm K hK hoff _ _
      (fun e0 f hf hc junk => C53_maxwell near corner np M hP e0 space ht hT f hf hc junk k) fun f d a q _ h1 h2 => ?_
  have q1 := ((xs q).sub (ps q)).norm ℝ (sub_ne_zero.2 h1)
  have r := ofReal_smooth q1
  have r0 := norm_ne_zero_iff.2 (sub_ne_zero.2 h1)
  refine ((helmholtz_smooth k (xs q) (ps q) h1).mul (fields q _ _ _ _ _ _ d)).add ((contDiffAt_const.mul ?_).mul (fs q (div_smooth _ _ _ _ _ _)))
  unfold Kernel.maxwellGrad
  refine ContDiffAt.mul (cdiv_smooth ((((cexp_smooth (contDiffAt_const.mul r)).mul (contDiffAt_const.sub (contDiffAt_const.mul r))).div_const 4).div_const _)
    (ofReal_smooth ((q1.mul q1).mul q1)) ?_) (ofReal_smooth (comp3 q ((xs q).sub (ps q)) d))
  exact_mod_cast mul_ne_zero (mul_ne_zero r0 r0) r0

/-- C90: load vectors.  In the order of the conjuncts: Dirichlet trace `∫ g v`, Neumann trace `∫ (g · n) v`, tangential trace
`∫ (conj g × n) · v` and rotated tangential trace `∫ g · v`; `v` is the test function. -/
theorem C90_load {R : Type} [RCLike R] (es : EigenSolver) (hes : SolverCorrect es) {V : Type} (near : V → V → Bool) (corner : Nat → Nat → V)
    (np M : Nat) (hP : 0 < np) (space : Space R) (ht : initElementTree near corner np M = some space.t)
    (hreg : RegularPatches np space.geo) (hsm : SmoothPatches np space.geo) :
    let u := fun (f : EMat R) (a : Addr) (p : SurfPt) =>
      discreteFunction space.trans f space.t.nElements space.P 0 (space.t.id a) (getH space.t a) p.xi
    let F := fun (f : EMat R) (a : Addr) (p : SurfPt) (k : Fin 3) =>
      discreteField space.trans f space.t.nElements space.P (space.t.id a) (getH space.t a) p.xi p.dx p.dy k
    (space.trans.rows = 1 * ((space.P + 1) * (space.P + 1) * space.t.nElements) →
      (∀ g : V3 → R, SmoothData np space.geo g → LoadAccurate es space (LinearForm.dirichlet g)
        fun f a p => g p.f * algebraMap ℝ R ‖cross3 p.dx p.dy‖ * u f a p) ∧
      (∀ g : V3 → Fin 3 → R, SmoothData np space.geo g → LoadAccurate es space (LinearForm.neumann g)
        fun f a p => (∑ k, g p.f k * algebraMap ℝ R (cross3 p.dx p.dy k)) * u f a p)) ∧
    (space.trans.rows = 2 * ((space.P + 1) * (space.P + 1) * space.t.nElements) → ∀ g : V3 → Fin 3 → R, SmoothData np space.geo g →
      (∀ cj : R →ₐ[ℝ] R, LoadAccurate es space (LinearForm.tangential cj g) fun f a p =>
        let n := fun k => algebraMap ℝ R (normalized (cross3 p.dx p.dy) k)
        let w := fun k => cj (g p.f k)
        (w 1 * n 2 - w 2 * n 1) * F f a p 0 + (w 2 * n 0 - w 0 * n 2) * F f a p 1 + (w 0 * n 1 - w 1 * n 0) * F f a p 2) ∧
      ∀ cj : R → R, LoadAccurate es space (LinearForm.rotatedTangential cj g) fun f a p => ∑ k, g p.f k * F f a p k) := by
  intro u F
  have gs : ∀ {E : Type} [NormedAddCommGroup E] [NormedSpace ℝ E] (g : V3 → E), SmoothData np space.geo g →
      ∀ q : ℝ × (ℝ × ℝ) × V3 × V3 × V3, (∃ p < np, ∃ s, ClosedSquare s ∧ q.2.2.1 = (space.geo p s).1) →
      ContDiffAt ℝ ∞ (fun q : ℝ × (ℝ × ℝ) × V3 × V3 × V3 => g q.2.2.1) q := by
    intro E _ _ g hg q ⟨p, hp, s, hs, e⟩
    exact ContDiffAt.comp (g := g) q (by rw [e]; exact hg p hp s hs) (ps q)
  have gk : ∀ (g : V3 → Fin 3 → R), SmoothData np space.geo g →
      ∀ q : ℝ × (ℝ × ℝ) × V3 × V3 × V3, (∃ p < np, ∃ s, ClosedSquare s ∧ q.2.2.1 = (space.geo p s).1) →
      ∀ k, ContDiffAt ℝ ∞ (fun q : ℝ × (ℝ × ℝ) × V3 × V3 × V3 => g q.2.2.1 k) q := fun g hg q hq => contDiffAt_pi.1 (gs g hg q hq)
  refine ⟨fun hT => ⟨fun g hg => ?_, fun g hg => ?_⟩, fun hT g hg => ⟨fun cj => ?_, fun cj => ?_⟩⟩
  · refine load_of es hes near corner np M hP space ht hreg hsm _ _ (fun junk Q => C61_dirichlet near corner np M hP space ht hT junk Q g)
      fun f a q hq h => ?_
    exact ((gs g hg q hq).mul (map_smooth (areas q h))).mul (fs q (fun_smooth _ _ _ _ _ _ _))
  · refine load_of es hes near corner np M hP space ht hreg hsm _ _ (fun junk Q => C61_neumann near corner np M hP space ht hT junk Q g)
      fun f a q hq h => ?_
    exact (ContDiffAt.sum fun k _ => (gk g hg q hq k).mul (map_smooth (comp3 q (ns q) k))).mul (fs q (fun_smooth _ _ _ _ _ _ _))
  · refine load_of es hes near corner np M hP space ht hreg hsm _ _ (fun junk Q => C61_tangential near corner np M hP space ht hT junk Q g cj)
      fun f a q hq h => ?_
    have n := fun k => map_smooth (R := R) (comp3 q (normalized_smooth (ns q) h) k)
    have w := fun k => alg_smooth cj (gk g hg q hq k)
    exact (((((w 1).mul (n 2)).sub ((w 2).mul (n 1))).mul (fields q _ _ _ _ _ _ _)).add
      ((((w 2).mul (n 0)).sub ((w 0).mul (n 2))).mul (fields q _ _ _ _ _ _ _))).add
      ((((w 0).mul (n 1)).sub ((w 1).mul (n 0))).mul (fields q _ _ _ _ _ _ _))
  · refine load_of es hes near corner np M hP space ht hreg hsm _ _
      (fun junk Q => C61_rotated_tangential near corner np M hP space ht hT junk Q g cj) fun f a q hq h => ?_
    exact ContDiffAt.sum fun k _ => (gk g hg q hq k).mul (fields q _ _ _ _ _ _ _)

/-- C90: mass matrices. -/
theorem C90_mass (es : EigenSolver) (hes : SolverCorrect es) {V : Type} (near : V → V → Bool) (corner : Nat → Nat → V)
    (np M : Nat) (hP : 0 < np) (space : Space ℝ) (ht : initElementTree near corner np M = some space.t)
    (hT : space.trans.rows = 1 * ((space.P + 1) * (space.P + 1) * space.t.nElements))
    (hreg : RegularPatches np space.geo) (hsm : SmoothPatches np space.geo) :
    MatrixAccurate es space LocalOperator.identity fun c d a p => ‖cross3 p.dx p.dy‖ *
      discreteFunction space.trans (unitVec space.trans.cols c) space.t.nElements space.P 0 (space.t.id a) (getH space.t a) p.xi *
      discreteFunction space.trans (unitVec space.trans.cols d) space.t.nElements space.P 0 (space.t.id a) (getH space.t a) p.xi := by
  refine matrix_of es hes near corner np M hP space ht hreg hsm _ _ (fun junk Q _ => C62_mass near corner np M hP space ht hT junk Q)
    fun c d a q h => ?_
  exact ((areas q h).mul (fs q (fun_smooth _ _ _ _ _ _ _))).mul (fs q (fun_smooth _ _ _ _ _ _ _))

/-- C90: stiffness matrices of the Laplace-Beltrami operator; `grad c` is the surface gradient of ansatz function `c`. -/
theorem C90_laplace_beltrami (es : EigenSolver) (hes : SolverCorrect es) {V : Type} (near : V → V → Bool) (corner : Nat → Nat → V)
    (np M : Nat) (hP : 0 < np) (space : Space ℝ) (ht : initElementTree near corner np M = some space.t)
    (hT : space.trans.rows = 1 * ((space.P + 1) * (space.P + 1) * space.t.nElements))
    (hreg : RegularPatches np space.geo) (hsm : SmoothPatches np space.geo) (grad : Nat → Addr → SurfPt → V3)
    (hgrad : ∀ c < space.trans.cols, ∀ (a : Addr) (s : ℝ × ℝ), IsNode np M a → ClosedSquare s → let p := elementPoint space.t space.geo a s
      IsSurfaceGradient p.dx p.dy
        (discreteDx space.trans (unitVec space.trans.cols c) space.t.nElements space.P 0 (space.t.id a) (getH space.t a) s)
        (discreteDy space.trans (unitVec space.trans.cols c) space.t.nElements space.P 0 (space.t.id a) (getH space.t a) s) (grad c a p)) :
    MatrixAccurate es space LocalOperator.laplaceBeltrami fun c d a p => ‖cross3 p.dx p.dy‖ * inner ℝ (grad c a p) (grad d a p) := by
  let G := fun (c : Nat) (a : Addr) (p : SurfPt) => surfGrad p.dx p.dy
    (discreteDx space.trans (unitVec space.trans.cols c) space.t.nElements space.P 0 (space.t.id a) (getH space.t a) p.xi)
    (discreteDy space.trans (unitVec space.trans.cols c) space.t.nElements space.P 0 (space.t.id a) (getH space.t a) p.xi)
  have hr : ∀ a, IsNode np M a → ∀ s, ClosedSquare s → cross3 (elementPoint space.t space.geo a s).dx (elementPoint space.t space.geo a s).dy ≠ 0 :=
    fun a ha s hs => node_regular near corner np M hP space.t ht space.geo hreg M le_rfl a ha s hs 1
  have main : MatrixAccurate es space LocalOperator.laplaceBeltrami fun c d a p => ‖cross3 p.dx p.dy‖ * inner ℝ (G c a p) (G d a p) := by
    refine matrix_of es hes near corner np M hP space ht hreg hsm _ _ (fun junk Q hQ =>
      C62_laplace_beltrami near corner np M hP space ht hT junk Q hQ hreg G fun c hc a s ha hs => surfGrad_spec _ _ (hr a ha s hs) _ _) fun c d a q h => ?_
    have sg : ∀ c, ContDiffAt ℝ ∞ (fun q : ℝ × (ℝ × ℝ) × V3 × V3 × V3 => G c a ⟨q.2.1, 1, q.2.2.1, q.2.2.2.1, q.2.2.2.2⟩) q := by
      intro c
      have sx := fs q (dx_smooth space.trans (unitVec space.trans.cols c) space.t.nElements space.P 0 (space.t.id a) (getH space.t a))
      have sy := fs q (dy_smooth space.trans (unitVec space.trans.cols c) space.t.nElements space.P 0 (space.t.id a) (getH space.t a))
      have uu := (us q).inner ℝ (us q)
      have uv := (us q).inner ℝ (vs q)
      have vv := (vs q).inner ℝ (vs q)
      have d : ContDiffAt ℝ ∞ (fun q : ℝ × (ℝ × ℝ) × V3 × V3 × V3 => 1 / ‖cross3 q.2.2.2.1 q.2.2.2.2‖ ^ 2) q :=
        contDiffAt_const.div ((areas q h).pow 2) (pow_ne_zero 2 (norm_ne_zero_iff.2 h))
      exact d.smul (((((vv.mul sx).sub (uv.mul sy))).smul (us q)).add (((uu.mul sy).sub (uv.mul sx)).smul (vs q)))
    exact (areas q h).mul ((sg c).inner ℝ (sg d))
  obtain ⟨els, h1, h2⟩ := main
  have hnode : ∀ a ∈ els, IsNode np M a := by
    obtain ⟨t', k1, k2, k3, k4, k5, k6, k7⟩ := tree_facts (K := ℝ) near corner np M hP
    obtain rfl : space.t = t' := Option.some.inj (ht.symm.trans k1)
    obtain rfl : els = leaves np M := Option.some.inj (h1.symm.trans (elements_eq space.t np M hP k3 k6))
    exact fun a ha => mem_leaves.1 ha
  refine ⟨els, h1, fun κ => ?_⟩
  obtain ⟨C, hC⟩ := h2 κ
  refine ⟨C, fun order i hi junk => ?_⟩
  obtain ⟨A, k1, k2, k3, k4⟩ := hC order i hi junk
  refine ⟨A, k1, k2, k3, fun c hc d hd => ?_⟩
  rw [surfaceIntegral_congr space.t space.geo els _ (fun a p => ‖cross3 p.dx p.dy‖ * inner ℝ (G c a p) (G d a p)) fun a ha s hs => ?_]
  · exact k4 c hc d hd
  · simp only []
    rw [surfaceGradient_inner _ _ (hr a (hnode a ha) s hs) (hgrad c hc a s (hnode a ha) hs) (surfGrad_spec _ _ (hr a (hnode a ha) s hs) _ _)
      (hgrad d hd a s (hnode a ha) hs) (surfGrad_spec _ _ (hr a (hnode a ha) s hs) _ _)]
    rfl

/-- A curved surface, a segment of evaluation points below it, piecewise bilinear densities on the mesh of level two. -/
example (k : ℂ) : ∃ (es : EigenSolver) (space : Space ℂ) (K : Set V3), SolverCorrect es ∧ space.t.nElements = 16 ∧ space.P = 1 ∧
    (WithLp.toLp 2 ![0, 0, -1] : V3) ∈ K ∧ (WithLp.toLp 2 ![0, 0, -2] : V3) ∈ K ∧
    PotentialAccurate es 1 space (helmholtzSL k) (fun f x a p _ => Kernel.helmholtz k x p.f * (‖cross3 p.dx p.dy‖ : ℂ) *
      discreteFunction space.trans f space.t.nElements space.P 0 (space.t.id a) (getH space.t a) p.xi) K ∧
    LoadAccurate es space (LinearForm.dirichlet fun y => (y 0 : ℂ)) fun f a p => ((p.f 0 : ℝ) : ℂ) * algebraMap ℝ ℂ ‖cross3 p.dx p.dy‖ *
      discreteFunction space.trans f space.t.nElements space.P 0 (space.t.id a) (getH space.t a) p.xi := by
  obtain ⟨es, hes⟩ := solver_exists
  obtain ⟨t, h1, h2, h3, h4⟩ := C20_uniform_mesh (K := ℝ) (nearBy (1 / 1000)) (fun q j => (Smooth.bowl q (cornerPoint j)).1) 1 2 (by norm_num)
  have n16 : t.nElements = 16 := by rw [h2]; norm_num
  let space : Space ℂ := ⟨t, 1, Smooth.bowl, ⟨64, 64, fun i j => if i = j then 1 else 0⟩⟩
  have hT : space.trans.rows = 1 * ((space.P + 1) * (space.P + 1) * space.t.nElements) := by
    show 64 = 1 * ((1 + 1) * (1 + 1) * t.nElements)
    rw [n16]
  have hK : IsCompact ((fun z : ℝ => (WithLp.toLp 2 ![0, 0, z] : V3)) '' Set.Icc (-2) (-1)) := by
    refine isCompact_Icc.image ?_
    refine (PiLp.continuous_toLp 2 _).comp (continuous_pi fun i => ?_)
    fin_cases i
    · exact continuous_const
    · exact continuous_const
    · exact continuous_id
  have hoff : OffSurface ((fun z : ℝ => (WithLp.toLp 2 ![0, 0, z] : V3)) '' Set.Icc (-2) (-1)) 1 space.geo := by
    rintro p _ s _ ⟨z, hz, e⟩
    have e2 := congrFun (congrArg WithLp.ofLp e) 2
    simp [space, Smooth.bowl] at e2
    nlinarith [hz.2, sq_nonneg s.1]
  refine ⟨es, space, (fun z : ℝ => (WithLp.toLp 2 ![0, 0, z] : V3)) '' Set.Icc (-2) (-1), hes, n16, rfl, ⟨-1, by norm_num, rfl⟩, ⟨-2, by norm_num, rfl⟩,
    (C90_helmholtz es hes _ _ 1 2 (by norm_num) space h1 hT Smooth.bowl_reg Smooth.bowl_smooth _ hK hoff k).1,
    ((C90_load es hes _ _ 1 2 (by norm_num) space h1 Smooth.bowl_reg Smooth.bowl_smooth).1 hT).1 _ fun p _ s _ => ?_⟩
  exact ofReal_smooth (contDiffAt_euclidean.1 contDiffAt_id 0)

end Bembel.Props
