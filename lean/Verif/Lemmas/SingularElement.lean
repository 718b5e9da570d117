import Verif.Lemmas.SingularOperator
import Verif.Lemmas.SingularGap
import Verif.Spec.Singular
import Verif.Props.Coincidence
/-! # Elements of smooth surfaces -/

namespace Bembel.Singular
open scoped ContDiff Topology
open Props Duffy MeasureTheory Finset H2 Spec Mesh SuperSpace

theorem cross_of_dependent (u v : V3) (α β : ℝ) (h : α • u + β • v = 0) (hc : cross3 u v ≠ 0) : α = 0 ∧ β = 0 := by
  have h2 : ∀ a b c : ℝ, (![a, b, c] : Fin 3 → ℝ) 2 = c := fun _ _ _ => rfl
  have e0 : α * u 0 + β * v 0 = 0 := by simpa using congrFun (congrArg WithLp.ofLp h) 0
  have e1 : α * u 1 + β * v 1 = 0 := by simpa using congrFun (congrArg WithLp.ofLp h) 1
  have e2 : α * u 2 + β * v 2 = 0 := by simpa using congrFun (congrArg WithLp.ofLp h) 2
  by_contra hne
  apply hc
  have a0 : α * (u 1 * v 2 - u 2 * v 1) = 0 := by linear_combination v 2 * e1 - v 1 * e2
  have b0 : β * (u 1 * v 2 - u 2 * v 1) = 0 := by linear_combination -u 2 * e1 + u 1 * e2
  have a1 : α * (u 2 * v 0 - u 0 * v 2) = 0 := by linear_combination v 0 * e2 - v 2 * e0
  have b1 : β * (u 2 * v 0 - u 0 * v 2) = 0 := by linear_combination -u 0 * e2 + u 2 * e0
  have a2 : α * (u 0 * v 1 - u 1 * v 0) = 0 := by linear_combination v 1 * e0 - v 0 * e1
  have b2 : β * (u 0 * v 1 - u 1 * v 0) = 0 := by linear_combination -u 1 * e0 + u 0 * e1
  have z : ∀ x : ℝ, α * x = 0 → β * x = 0 → x = 0 := by
    intro x h1 h2
    by_contra hx
    exact hne ⟨(mul_eq_zero.1 h1).resolve_right hx, (mul_eq_zero.1 h2).resolve_right hx⟩
  have f0 := z _ a0 b0
  have f1 := z _ a1 b1
  have f2 := z _ a2 b2
  unfold cross3
  ext i
  fin_cases i
  · simpa using f0
  · simpa using f1
  · simpa using f2

theorem cross_orthogonal (u v : V3) (α β : ℝ) : inner ℝ (α • u + β • v) (cross3 u v) = (0 : ℝ) := by
  have h2 : ∀ a b c : ℝ, (![a, b, c] : Fin 3 → ℝ) 2 = c := fun _ _ _ => rfl
  simp [cross3, PiLp.inner_apply, Fin.sum_univ_three, h2]
  ring

/-- Points and tangents of an element. -/
structure ElementSheet (t : Mesh.Tree ℝ) (geo : Nat → ℝ × ℝ → V3 × V3 × V3) (a : Addr) (X U V : ℝ × ℝ → V3) : Prop where
  sheet : Sheet X U V
  eq : ∀ x, ClosedSquare x → ∀ w, map2surface t geo a x w = ⟨x, w, X x, U x, V x⟩
  deriv : ∀ x v, fderiv ℝ X x v = (getH t a * v.1) • U x + (getH t a * v.2) • V x

theorem element_sheet {W : Type} (near : W → W → Bool) (corner : Nat → Nat → W) (P M : Nat) (hP : 0 < P) (t : Mesh.Tree ℝ)
    (ht : initElementTree near corner P M = some t) (geo : Nat → ℝ × ℝ → V3 × V3 × V3) (hreg : RegularPatches P geo) (hsm : SmoothSurface P geo)
    (l : Nat) (hl : l ≤ M) (a : Addr) (ha : IsNode P l a) : ∃ X U V, ElementSheet t geo a X U V := by
  have z0 : ClosedSquare (0, 0) := by norm_num [ClosedSquare]
  have q := node_square near corner P M hP t ht l hl a ha
  obtain ⟨g, hg, eg⟩ := hsm _ (q _ z0).1
  let φ : ℝ × ℝ → ℝ × ℝ := fun x => ((t.llc a).1 + getH t a * x.1, (t.llc a).2 + getH t a * x.2)
  have hφ : ContDiff ℝ ∞ φ := by unfold φ; fun_prop
  have hd : ∀ v : ℝ × ℝ, ContDiff ℝ ∞ fun x => fderiv ℝ g x v := fun v => (hg.fderiv_right (m := ∞) (by norm_cast)).clm_apply contDiff_const
  refine ⟨fun x => g (φ x), fun x => fderiv ℝ g (φ x) (1, 0), fun x => fderiv ℝ g (φ x) (0, 1),
    ⟨hg.comp hφ, (hd _).comp hφ, (hd _).comp hφ, fun x hx => ?_⟩, fun x hx w => ?_, fun x v => ?_⟩
  · have := hreg _ (q x hx).1 _ (q x hx).2
    rw [eg _ (q x hx).2] at this
    exact this
  · unfold map2surface
    simp only []
    rw [eg _ (q x hx).2]
  · have dφ : HasFDerivAt φ (((getH t a) • ContinuousLinearMap.fst ℝ ℝ ℝ).prod ((getH t a) • ContinuousLinearMap.snd ℝ ℝ ℝ)) x := by
      have h1 : HasFDerivAt (fun x : ℝ × ℝ => (t.llc a).1 + getH t a * x.1) ((getH t a) • ContinuousLinearMap.fst ℝ ℝ ℝ) x :=
        (hasFDerivAt_fst.const_mul _).const_add _
      have h2 : HasFDerivAt (fun x : ℝ × ℝ => (t.llc a).2 + getH t a * x.2) ((getH t a) • ContinuousLinearMap.snd ℝ ℝ ℝ) x :=
        (hasFDerivAt_snd.const_mul _).const_add _
      exact h1.prodMk h2
    have dg : HasFDerivAt g (fderiv ℝ g (φ x)) (φ x) := (hg.differentiable (by norm_num)).differentiableAt.hasFDerivAt
    have : fderiv ℝ (fun x => g (φ x)) x = _ := (dg.comp x dφ).fderiv
    rw [this]
    have e : ((((getH t a) • ContinuousLinearMap.fst ℝ ℝ ℝ).prod ((getH t a) • ContinuousLinearMap.snd ℝ ℝ ℝ)) v : ℝ × ℝ) =
        (getH t a * v.1) • ((1 : ℝ), (0 : ℝ)) + (getH t a * v.2) • ((0 : ℝ), (1 : ℝ)) := by
      simp
    rw [ContinuousLinearMap.comp_apply, e, map_add, map_smul, map_smul]

theorem getH_pos (t : Mesh.Tree ℝ) (a : Addr) : 0 < getH t a := by unfold getH; positivity

theorem ElementSheet.orth {t : Mesh.Tree ℝ} {geo : Nat → ℝ × ℝ → V3 × V3 × V3} {a : Addr} {X U V : ℝ × ℝ → V3} (h : ElementSheet t geo a X U V) (x v : ℝ × ℝ) :
    inner ℝ (fderiv ℝ X x v) (cross3 (U x) (V x)) = (0 : ℝ) := by
  rw [h.deriv]
  exact cross_orthogonal _ _ _ _

theorem ElementSheet.inj {t : Mesh.Tree ℝ} {geo : Nat → ℝ × ℝ → V3 × V3 × V3} {a : Addr} {X U V : ℝ × ℝ → V3} (h : ElementSheet t geo a X U V) (x : ℝ × ℝ)
    (hx : ClosedSquare x) (v : ℝ × ℝ) (hv : fderiv ℝ X x v = 0) : v = 0 := by
  rw [h.deriv] at hv
  obtain ⟨h1, h2⟩ := cross_of_dependent _ _ _ _ hv (h.sheet.regular x hx)
  have p := (getH_pos t a).ne'
  exact Prod.ext ((mul_eq_zero.1 h1).resolve_left p) ((mul_eq_zero.1 h2).resolve_left p)

/-- Regular injective parametrisations of the closed square do not contract distances too much. -/
theorem regular_gap (X : ℝ × ℝ → V3) (hX : ContDiff ℝ ∞ X) (hi : ∀ x y, ClosedSquare x → ClosedSquare y → X x = X y → x = y)
    (hd : ∀ x, ClosedSquare x → ∀ v, fderiv ℝ X x v = 0 → v = 0) :
    ∃ c > 0, ∀ x y, ClosedSquare x → ClosedSquare y → c * ‖x - y‖ ≤ ‖X x - X y‖ := by
  obtain ⟨c, c0, h⟩ := compact_gap (E := PointPair) Cube isCompact_Icc (fun p => p.1 - p.2) (fun p => X p.1 - X p.2) (by fun_prop)
    ((hX.continuous.comp continuous_fst).sub (hX.continuous.comp continuous_snd))
    (fun p hp h => by
      obtain ⟨q1, q2⟩ := cube_square hp
      simp only [hi _ _ q1 q2 (sub_eq_zero.1 h), sub_self]) fun p hp hz => by
      obtain ⟨q1, q2⟩ := cube_square hp
      have e : p = (p.1, p.1) := Prod.ext rfl (sub_eq_zero.1 hz).symm
      have st := (hX.contDiffAt (x := p.1)).hasStrictFDerivAt (by norm_num)
      refine local_gap Cube _ _ p Set.univ (fderiv ℝ X p.1) (fun _ _ => trivial)
        (cone_gap _ isClosed_univ (fun _ _ _ _ => trivial) _ fun v _ hv => hd _ q1 v hv) ?_
      have := st.isLittleO
      rw [← e] at this
      exact this.mono nhdsWithin_le_nhds
  exact ⟨c, c0, fun x y hx hy => h (x, y) (square_cube hx hy)⟩

/-! ## Rotations -/

theorem tau_smooth (r : Nat) : ContDiff ℝ ∞ fun x : ℝ × ℝ => tau x.1 x.2 r := by
  match r with
  | 0 => exact (by fun_prop : ContDiff ℝ ∞ fun p : ℝ × ℝ => (p.1, p.2))
  | 1 => exact (by fun_prop : ContDiff ℝ ∞ fun p : ℝ × ℝ => (1 - p.2, p.1))
  | 2 => exact (by fun_prop : ContDiff ℝ ∞ fun p : ℝ × ℝ => (1 - p.1, 1 - p.2))
  | 3 => exact (by fun_prop : ContDiff ℝ ∞ fun p : ℝ × ℝ => (p.2, 1 - p.1))
  | n + 4 => exact (by fun_prop : ContDiff ℝ ∞ fun p : ℝ × ℝ => (p.1, p.2))

theorem tau_square (r : Nat) (x : ℝ × ℝ) (hx : ClosedSquare x) : ClosedSquare (tau x.1 x.2 r) := by
  obtain ⟨h1, h2, h3, h4⟩ := hx
  unfold tau ClosedSquare
  split <;> simp only [] <;> refine ⟨?_, ?_, ?_, ?_⟩ <;> linarith

theorem tau_norm (r : Nat) (x y : ℝ × ℝ) : ‖tau x.1 x.2 r - tau y.1 y.2 r‖ = ‖x - y‖ := by
  have e : ∀ a b : ℝ, |1 - a - (1 - b)| = |a - b| := fun a b => by
    rw [show 1 - a - (1 - b) = -(a - b) by ring, abs_neg]
  match r with
  | 0 => rfl
  | 1 => simp only [tau, Prod.norm_def, Prod.fst_sub, Prod.snd_sub, Real.norm_eq_abs, e]; exact max_comm _ _
  | 2 => simp only [tau, Prod.norm_def, Prod.fst_sub, Prod.snd_sub, Real.norm_eq_abs, e]
  | 3 => simp only [tau, Prod.norm_def, Prod.fst_sub, Prod.snd_sub, Real.norm_eq_abs, e]; exact max_comm _ _
  | n + 4 => rfl

theorem tau_inverse (c : Nat) : ∃ d : Nat, ∀ x : ℝ × ℝ, tau (tau x.1 x.2 d).1 (tau x.1 x.2 d).2 c = x := by
  match c with
  | 0 => exact ⟨0, fun x => rfl⟩
  | 1 => exact ⟨3, fun x => by simp [tau]⟩
  | 2 => exact ⟨2, fun x => by simp [tau]⟩
  | 3 => exact ⟨1, fun x => by simp [tau]⟩
  | n + 4 => exact ⟨0, fun x => rfl⟩

theorem sheet_rot {X U V : ℝ × ℝ → V3} (h : Sheet X U V) (r : Nat) :
    Sheet (fun x => X (tau x.1 x.2 r)) (fun x => U (tau x.1 x.2 r)) (fun x => V (tau x.1 x.2 r)) :=
  ⟨h.point.comp (tau_smooth r), h.first.comp (tau_smooth r), h.second.comp (tau_smooth r), fun x hx => h.regular _ (tau_square r x hx)⟩

variable {R : Type} [RCLike R]

/-- Integrability does not depend on the rotation. -/
theorem unrotate (F : PointPair → R) (r s : Nat) (h : Integrable (rotated r s F) μ4) : Integrable F μ4 ∧ ∫ p, rotated r s F p ∂μ4 = ∫ p, F p ∂μ4 := by
  obtain ⟨r', hr⟩ := tau_inverse r
  obtain ⟨s', hs⟩ := tau_inverse s
  have e : rotated r' s' (rotated r s F) = F := by
    funext p
    unfold rotated
    simp only []
    rw [hr, hs]
  have := rotated_integral (rotated r s F) h r' s'
  rw [e] at this
  exact ⟨this.1, this.2.symm⟩

/-! ## Rates -/

variable {n : Nat} {w : Fin n → PointPair → ℝ} {Φ : Fin n → PointPair → PointPair} {σ : PointPair →L[ℝ] ℝ}

theorem pairQuad_congr {E : Type} [AddCommGroup E] [Module ℝ E] (Q : Cubature ℝ) (hQ : ∀ i < Q.size, ClosedSquare (Q.xi i)) (F G : PointPair → E)
    (h : ∀ p ∈ Cube, F p = G p) : pairQuad Q F = pairQuad Q G := by
  unfold pairQuad
  refine sum_congr rfl fun i hi => sum_congr rfl fun j hj => ?_
  rw [h _ (square_cube (hQ i (mem_range.1 hi)) (hQ j (mem_range.1 hj)))]

theorem gauss_closed (es : EigenSolver) (hes : SolverCorrect es) (order i : Nat) (h : i ≤ order) :
    ∀ k < (gaussSquare es order i).size, ClosedSquare ((gaussSquare es order i).xi k) := by
  have hp := (Smooth.gauss_facts es hes order i h).1.nodes
  have e : gaussSquare es order i = tensorRule (gaussLegendre es order i) := by
    unfold gaussSquare gaussLegendre
    rw [(C46_select _ order i h).2, (C46_select _ order i h).1]
  rw [e]
  exact tensorRule_closed _ hp

/-- The rate for an integrand that agrees on the cube with one whose transformation is smooth. -/
theorem rate_of (Pc : ∀ k, ∀ p ∈ Cube, Φ k p ∈ Cube) (S : Subst w Φ) (hσ : ∀ᵐ p ∂μ4, 0 < σ p)
    (hi : ∀ p : PointPair, InSquare p.1 → InSquare p.2 → 0 < σ p) {F G : PointPair → R} (hG : Regularised w Φ σ G) (h : ∀ p ∈ Cube, F p = G p)
    (es : EigenSolver) (hes : SolverCorrect es) (κ : Nat) : ∃ C, 0 ≤ C ∧ ∀ order i, i ≤ order →
      ‖pairQuad (gaussSquare es order i) (fun p => ∑ k, w k p • F (Φ k p)) - ∫ p, F p ∂μ4‖ ≤ C / ((i : ℝ) + 1) ^ κ := by
  obtain ⟨C, hC, hr⟩ := hG.rate S hσ hi es hes κ
  refine ⟨C, hC, fun order i ho => ?_⟩
  have e1 : ∫ p, F p ∂μ4 = ∫ p, G p ∂μ4 := integral_congr_ae (by filter_upwards [mem_ae] with p hp using h p hp)
  rw [e1, pairQuad_congr _ (gauss_closed es hes order i ho) _ (fun p => ∑ k, w k p • G (Φ k p)) fun p hp => sum_congr rfl fun k _ => by rw [h _ (Pc k p hp)]]
  exact hr order i ho

theorem integrable_of (S : Subst w Φ) (hσ : ∀ᵐ p ∂μ4, 0 < σ p) {F G : PointPair → R} (hG : Regularised w Φ σ G) (h : ∀ p ∈ Cube, F p = G p) : Integrable F μ4 :=
  (hG.integrable S hσ).congr (by filter_upwards [mem_ae] with p hp using (h p hp).symm)

end Bembel.Singular
