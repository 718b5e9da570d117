import Verif.Props.L2Error
/-!
# Property C62, continued: symmetry, semidefiniteness and kernel of the Laplace-Beltrami matrix
-/

set_option linter.unusedSectionVars false

namespace Bembel.Props
open Finset Bembel.Mesh Bembel.Spec Bembel.FunctionEval Bembel.SuperSpace Bembel.LocalOperator

/-- The gradient in terms of the tangents. -/
noncomputable def surfGrad (dx dy : V3) (ux uy : ℝ) : V3 :=
  (1 / ‖cross3 dx dy‖ ^ 2) • ((inner ℝ dy dy * ux - inner ℝ dx dy * uy) • dx + (inner ℝ dx dx * uy - inner ℝ dx dy * ux) • dy)

theorem norm_cross_sq (dx dy : V3) : ‖cross3 dx dy‖ ^ 2 = inner ℝ dx dx * inner ℝ dy dy - inner ℝ dx dy * inner ℝ dx dy := by
  rw [← real_inner_self_eq_norm_sq]
  simp only [PiLp.inner_apply, Fin.sum_univ_three, cross3, RCLike.inner_apply, conj_trivial]
  simp
  ring

/-- At regular points every pair of partial derivatives has a surface gradient. -/
theorem surfGrad_spec (dx dy : V3) (h : cross3 dx dy ≠ 0) (ux uy : ℝ) : IsSurfaceGradient dx dy ux uy (surfGrad dx dy ux uy) := by
  have hn := norm_cross_sq dx dy
  have h0 : inner ℝ dx dx * inner ℝ dy dy - inner ℝ dx dy * inner ℝ dx dy ≠ 0 := by
    rw [← hn]; exact pow_ne_zero 2 (norm_ne_zero_iff.2 h)
  refine ⟨⟨_, _, by unfold surfGrad; rw [smul_add, smul_smul, smul_smul]⟩, ?_, ?_⟩
  all_goals
    unfold surfGrad
    rw [hn, inner_smul_left, inner_add_left, inner_smul_left, inner_smul_left]
    simp only [conj_trivial, real_inner_comm dx dy]
    rw [one_div, inv_mul_eq_div, div_eq_iff h0]
    ring

theorem surfGrad_sum (dx dy : V3) (n : Nat) (f ux uy : Nat → ℝ) :
    ∑ c ∈ range n, f c • surfGrad dx dy (ux c) (uy c) = surfGrad dx dy (∑ c ∈ range n, f c * ux c) (∑ c ∈ range n, f c * uy c) := by
  induction n with
  | zero => simp [surfGrad]
  | succ n ih =>
    rw [sum_range_succ, ih, sum_range_succ, sum_range_succ]
    unfold surfGrad
    module

/-- The surface gradient is unique, up to what inner products see. -/
theorem surfaceGradient_inner (dx dy : V3) (h : cross3 dx dy ≠ 0) {ux uy vx vy : ℝ} {g g' k k' : V3} (hg : IsSurfaceGradient dx dy ux uy g)
    (hg' : IsSurfaceGradient dx dy ux uy g') (hk : IsSurfaceGradient dx dy vx vy k) (hk' : IsSurfaceGradient dx dy vx vy k') :
    inner ℝ g k = inner ℝ g' k' := by
  have e1 := curl_gradient dx dy h ux uy vx vy g k hg hk
  have e2 := curl_gradient dx dy h ux uy vx vy g' k' hg' hk'
  rw [e1] at e2
  exact mul_left_cancel₀ (pow_ne_zero 2 (norm_ne_zero_iff.2 h)) e2

theorem discreteDx_expand (T f : EMat ℝ) (nE P d n : Nat) (h : ℝ) (s : ℝ × ℝ) :
    ∑ c ∈ range T.cols, f.at' c 0 * discreteDx T (unitVec T.cols c) nE P d n h s = discreteDx T f nE P d n h s := by
  simp only [discreteDx]
  rw [sum_congr rfl fun c hc => by rw [sum_congr rfl fun i _ => by rw [localCoeff_unit _ _ _ _ _ _ _ (mem_range.1 hc)]]]
  simp only [localCoeff, mul_sum, sum_mul]
  rw [sum_comm]
  refine sum_congr rfl fun i _ => sum_congr rfl fun c _ => ?_
  ring

theorem discreteDy_expand (T f : EMat ℝ) (nE P d n : Nat) (h : ℝ) (s : ℝ × ℝ) :
    ∑ c ∈ range T.cols, f.at' c 0 * discreteDy T (unitVec T.cols c) nE P d n h s = discreteDy T f nE P d n h s := by
  simp only [discreteDy]
  rw [sum_congr rfl fun c hc => by rw [sum_congr rfl fun i _ => by rw [localCoeff_unit _ _ _ _ _ _ _ (mem_range.1 hc)]]]
  simp only [localCoeff, mul_sum, sum_mul]
  rw [sum_comm]
  refine sum_congr rfl fun i _ => sum_congr rfl fun c _ => ?_
  ring

/-- C62: the Laplace-Beltrami matrix is symmetric; its bilinear form is the quadrature of the product of the surface gradients of the two
functions, so its quadratic form is nonnegative for rules with nonnegative weights; and it maps every vector whose function has vanishing partial
derivatives at the quadrature nodes (constants) to zero. -/
theorem C62_laplace_beltrami_form {V : Type} (near : V → V → Bool) (corner : Nat → Nat → V) (np M : Nat) (hP : 0 < np)
    (space : Space ℝ) (ht : initElementTree near corner np M = some space.t)
    (hT : space.trans.rows = 1 * ((space.P + 1) * (space.P + 1) * space.t.nElements)) (junk : Nat → ℝ) (Q : Cubature ℝ)
    (hQ1 : ∀ j < Q.size, Spec.ClosedSquare (Q.xi j)) (hreg : Spec.RegularPatches np space.geo) :
    ∃ els A, elements space.t = some els ∧ LocalOperator.compute junk laplaceBeltrami space Q = some A ∧
      A.rows = space.trans.cols ∧ A.cols = space.trans.cols ∧
      (∀ c < space.trans.cols, ∀ d < space.trans.cols, A.at' c d = A.at' d c) ∧
      (∀ (f g : EMat ℝ) (gf gg : Addr → SurfPt → V3),
        (∀ a ∈ els, ∀ j < Q.size, let p := elementPoint space.t space.geo a (Q.xi j)
          IsSurfaceGradient p.dx p.dy (discreteDx space.trans f space.t.nElements space.P 0 (space.t.id a) (getH space.t a) (Q.xi j))
            (discreteDy space.trans f space.t.nElements space.P 0 (space.t.id a) (getH space.t a) (Q.xi j)) (gf a p)) →
        (∀ a ∈ els, ∀ j < Q.size, let p := elementPoint space.t space.geo a (Q.xi j)
          IsSurfaceGradient p.dx p.dy (discreteDx space.trans g space.t.nElements space.P 0 (space.t.id a) (getH space.t a) (Q.xi j))
            (discreteDy space.trans g space.t.nElements space.P 0 (space.t.id a) (getH space.t a) (Q.xi j)) (gg a p)) →
        ∑ c ∈ range space.trans.cols, f.at' c 0 * ∑ d ∈ range space.trans.cols, A.at' c d * g.at' d 0 =
          surfaceQuad space.t space.geo Q els fun a p => ‖cross3 p.dx p.dy‖ * inner ℝ (gf a p) (gg a p)) ∧
      ((∀ j < Q.size, 0 ≤ Q.w j) → ∀ f : EMat ℝ, 0 ≤ ∑ c ∈ range space.trans.cols, f.at' c 0 *
        ∑ d ∈ range space.trans.cols, A.at' c d * f.at' d 0) ∧
      ∀ f : EMat ℝ, (∀ a ∈ els, ∀ j < Q.size,
          discreteDx space.trans f space.t.nElements space.P 0 (space.t.id a) (getH space.t a) (Q.xi j) = 0 ∧
          discreteDy space.trans f space.t.nElements space.P 0 (space.t.id a) (getH space.t a) (Q.xi j) = 0) →
        ∀ c < space.trans.cols, ∑ d ∈ range space.trans.cols, A.at' c d * f.at' d 0 = 0 := by
  set G : EMat ℝ → Addr → SurfPt → V3 := fun f a p => surfGrad p.dx p.dy
    (discreteDx space.trans f space.t.nElements space.P 0 (space.t.id a) (getH space.t a) p.xi)
    (discreteDy space.trans f space.t.nElements space.P 0 (space.t.id a) (getH space.t a) p.xi) with hG
  have hr := node_regular near corner np M hP space.t ht space.geo hreg M le_rfl
  obtain ⟨els, A, h1, h2, h3, h4, h5⟩ := C62_laplace_beltrami near corner np M hP space ht hT junk Q hQ1 hreg
    (fun c => G (unitVec space.trans.cols c)) fun c hc a s ha hs => surfGrad_spec _ _ (hr a ha s hs 1) _ _
  have hsum : ∀ (f : EMat ℝ) a p, ∑ c ∈ range space.trans.cols, f.at' c 0 • G (unitVec space.trans.cols c) a p = G f a p := by
    intro f a p
    simp only [hG]
    rw [surfGrad_sum, discreteDx_expand, discreteDy_expand]
  have hrow : ∀ (f : EMat ℝ) c, c < space.trans.cols → ∑ d ∈ range space.trans.cols, A.at' c d * f.at' d 0 =
      surfaceQuad space.t space.geo Q els fun a p => ‖cross3 p.dx p.dy‖ * inner ℝ (G (unitVec space.trans.cols c) a p) (G f a p) := by
    intro f c hc
    rw [sum_congr rfl fun d hd => by rw [h5 c hc d (mem_range.1 hd), mul_comm], surfaceQuad_sum _ _ _ _ _ (fun d => f.at' d 0)]
    congr 1
    funext a p
    rw [← hsum f, inner_sum, mul_sum]
    exact sum_congr rfl fun d _ => by rw [inner_smul_right]; ring
  have hbil : ∀ f g : EMat ℝ, ∑ c ∈ range space.trans.cols, f.at' c 0 * ∑ d ∈ range space.trans.cols, A.at' c d * g.at' d 0 =
      surfaceQuad space.t space.geo Q els fun a p => ‖cross3 p.dx p.dy‖ * inner ℝ (G f a p) (G g a p) := by
    intro f g
    rw [sum_congr rfl fun c hc => by rw [hrow g c (mem_range.1 hc)], surfaceQuad_sum _ _ _ _ _ (fun d => f.at' d 0)]
    congr 1
    funext a p
    rw [← hsum f, sum_inner, mul_sum]
    exact sum_congr rfl fun d _ => by rw [inner_smul_left]; simp only [conj_trivial]; ring
  refine ⟨els, A, h1, h2, h3, h4, ?_, ?_, ?_, ?_⟩
  · intro c hc d hd
    rw [h5 c hc d hd, h5 d hd c hc]
    congr 1
    funext a p
    rw [real_inner_comm]
  · intro f g gf gg hf hg
    rw [hbil]
    refine surfaceQuad_congr _ _ _ _ _ _ fun a ha j hj => ?_
    congr 1
    have hra : Regular (elementPoint space.t space.geo a (Q.xi j)) := by
      obtain ⟨t', k1, k2, k3, k4, k5, k6, k7⟩ := tree_facts (K := ℝ) near corner np M hP
      obtain rfl : space.t = t' := Option.some.inj (ht.symm.trans k1)
      rw [elements_eq space.t np M hP k3 k6] at h1
      rw [← Option.some.inj h1] at ha
      exact hr a (mem_leaves.1 ha) _ (hQ1 j hj) 1
    exact surfaceGradient_inner _ _ hra (surfGrad_spec _ _ hra _ _) (hf a ha j hj) (surfGrad_spec _ _ hra _ _) (hg a ha j hj)
  · intro hQ f
    rw [hbil]
    refine surfaceQuad_nonneg _ _ _ _ hQ _ fun a p => ?_
    rw [real_inner_self_eq_norm_sq]
    positivity
  · intro f hf c hc
    rw [hrow f c hc, surfaceQuad_congr _ _ _ _ _ (fun _ _ => 0)]
    · simp [surfaceQuad]
    · intro a ha j hj
      obtain ⟨e1, e2⟩ := hf a ha j hj
      have e : (elementPoint space.t space.geo a (Q.xi j)).xi = Q.xi j := rfl
      simp only [hG, e, e1, e2]
      simp [surfGrad]

/-- The hypotheses are met by two unit squares side by side. -/
example (es : EigenSolver) : ∃ (space : Space ℝ) (A : EMat ℝ), space.trans.cols = 512 ∧
    LocalOperator.compute (fun _ => 0) laplaceBeltrami space (gaussSquare es 50 2) = some A := by
  obtain ⟨space, h1, h2, h3, h4, h5⟩ := demo_space 2 3
  have hQ1 : ∀ j < (gaussSquare es 50 2).size, Spec.ClosedSquare ((gaussSquare es 50 2).xi j) := by
    rw [show gaussSquare es 50 2 = tensorRule (gaussLegendreRule es 3) from (C46_select (gaussLegendreRule es) 50 2 (by norm_num)).2]
    obtain ⟨q1, q2, -⟩ := C47_tables es 3 (by norm_num) (by norm_num)
    exact tensorRule_closed _ fun i hi => ⟨(q2 i (q1 ▸ hi)).1.le, (q2 i (q1 ▸ hi)).2.1.le⟩
  obtain ⟨els, A, -, a2, -⟩ := C62_laplace_beltrami_form _ _ 2 2 (by norm_num) space h1 (by rw [h3, h2]) (fun _ => 0) (gaussSquare es 50 2) hQ1 (by
    intro i _ s _ h
    rw [h5] at h
    have := congrFun (congrArg WithLp.ofLp h) 2
    simp at this)
  exact ⟨space, A, by rw [h3, h4]; norm_num, a2⟩

end Bembel.Props
