import Verif.Model.L2Error
import Verif.Props.LocalOperator
import Verif.Props.Quadrature
/-!
# Property theorems C71: the L2 error on the surface
-/

set_option linter.unusedSectionVars false

namespace Bembel.Props
open Finset Bembel.Mesh Bembel.Spec Bembel.FunctionEval Bembel.SuperSpace Bembel.LocalOperator Bembel.L2Error

theorem foldlM_sum {β : Type} (L : List β) (f : ℝ → β → Option ℝ) (G : β → ℝ) (h : ∀ r, ∀ b ∈ L, f r b = some (r + G b)) (r : ℝ) :
    L.foldlM f r = some (r + (L.map G).sum) := by
  induction L generalizing r with
  | nil => simp
  | cons b L ih =>
    rw [List.foldlM_cons, h r b (by simp)]
    simp only [Option.bind_eq_bind, Option.bind_some]
    rw [ih (fun r b hb => h r b (by simp [hb])), List.map_cons, List.sum_cons, add_assoc]

section
variable {V : Type} (near : V → V → Bool) (corner : Nat → Nat → V) (np M : Nat) (hP : 0 < np)
  (space : Space ℝ) (ht : initElementTree near corner np M = some space.t)
  (hT : space.trans.rows = 1 * ((space.P + 1) * (space.P + 1) * space.t.nElements))

include hP ht hT

/-- C71: for every vector of the right length, `surfaceL2error` is the square root of the quadrature on the surface of the squared
difference (times area element) of the given function and the function of the vector. -/
theorem C71_l2error (junk : Nat → ℝ) (e0 : Evaluator ℝ) (vec : EMat ℝ) (hv : vec.rows = space.trans.cols) (hc : vec.cols = 1) (g : V3 → ℝ)
    (Q : Cubature ℝ) :
    ∃ els, elements space.t = some els ∧ surfaceL2error junk e0 space vec g Q = some (Real.sqrt (surfaceQuad space.t space.geo Q els fun a p =>
      ‖cross3 p.dx p.dy‖ * (g p.f - discreteFunction space.trans vec space.t.nElements space.P 0 (space.t.id a) (getH space.t a) p.xi) ^ 2)) := by
  obtain ⟨t', h1, out, h2, -⟩ := C26_reordering (K := ℝ) near corner np M hP
  obtain rfl : space.t = t' := Option.some.inj (ht.symm.trans h1)
  obtain ⟨t', k1, k2, k3, k4, k5, k6, k7⟩ := tree_facts (K := ℝ) near corner np M hP
  obtain rfl : space.t = t' := Option.some.inj (ht.symm.trans k1)
  have hel := elements_eq space.t np M hP k3 k6
  refine ⟨_, hel, ?_⟩
  unfold surfaceL2error FunctionEval.init
  rw [h2, hel]
  simp only [Option.bind_eq_bind, Option.bind_some]
  obtain ⟨e', g1, g2, g3, g4, g5, g6, g7, g8⟩ := coeffs_eq (e := { e0 with
    space := space, pp := (space.P + 1) * (space.P + 1), reordSize := space.t.nElements, reord := out }) (by omega : 0 < 1) hT hv hc
  rw [g1]
  simp only [Option.bind_some]
  have hH : Holds 1 e' vec := by
    simp only at g2 g3
    refine ⟨by rw [g3, g2], by rw [g6, g3, g2], g7, ?_⟩
    rw [g2]; exact g8
  have hs : e'.space = space := g2
  rw [foldlM_sum _ _ (fun a => ∑ j ∈ range Q.size, getH space.t a ^ 2 * Q.w j * (‖cross3 (elementPoint space.t space.geo a (Q.xi j)).dx
      (elementPoint space.t space.geo a (Q.xi j)).dy‖ * (g (elementPoint space.t space.geo a (Q.xi j)).f -
      discreteFunction space.trans vec space.t.nElements space.P 0 (space.t.id a) (getH space.t a) (Q.xi j)) ^ 2))]
  · simp only [Option.bind_some, zero_add]
    rfl
  · intro r a ha
    have hid : space.t.id a < space.t.nElements := by
      rw [(k2 M le_rfl a ha).1, k3]; exact pathId_lt ha
    rw [foldlM_sum _ _ (fun j => getH space.t a ^ 2 * Q.w j * (‖cross3 (elementPoint space.t space.geo a (Q.xi j)).dx
      (elementPoint space.t space.geo a (Q.xi j)).dy‖ * (g (elementPoint space.t space.geo a (Q.xi j)).f -
      discreteFunction space.trans vec space.t.nElements space.P 0 (space.t.id a) (getH space.t a) (Q.xi j)) ^ 2))]
    · congr 2
    · intro r j _
      have := evaluate_eq junk hH (a := a) (by rw [hs]; exact hid) (map2surface space.t space.geo a (Q.xi j) (Q.w j))
      rw [this]
      simp only [Option.bind_some, Option.some.injEq, hs]
      change r + ‖cross3 (elementPoint space.t space.geo a (Q.xi j)).dx (elementPoint space.t space.geo a (Q.xi j)).dy‖ * _ * _ * _ *
        (g (elementPoint space.t space.geo a (Q.xi j)).f - discreteFunction space.trans vec space.t.nElements space.P 0 (space.t.id a)
          (getH space.t a) (Q.xi j)) * (g (elementPoint space.t space.geo a (Q.xi j)).f - discreteFunction space.trans vec space.t.nElements space.P 0
            (space.t.id a) (getH space.t a) (Q.xi j)) = _
      ring

/-- C71: for regular geometries and rules with positive weights, the error is zero exactly if the functions agree at all quadrature nodes. -/
theorem C71_zero (hreg : Spec.RegularPatches np space.geo) (junk : Nat → ℝ) (e0 : Evaluator ℝ) (vec : EMat ℝ)
    (hv : vec.rows = space.trans.cols) (hc : vec.cols = 1) (g : V3 → ℝ) (Q : Cubature ℝ) (hQ : ∀ j < Q.size, 0 < Q.w j)
    (hQ1 : ∀ j < Q.size, Spec.ClosedSquare (Q.xi j)) :
    ∃ els err, elements space.t = some els ∧ surfaceL2error junk e0 space vec g Q = some err ∧ 0 ≤ err ∧
      (err = 0 ↔ ∀ a ∈ els, ∀ j < Q.size, g (elementPoint space.t space.geo a (Q.xi j)).f =
        discreteFunction space.trans vec space.t.nElements space.P 0 (space.t.id a) (getH space.t a) (Q.xi j)) := by
  obtain ⟨els, h1, h2⟩ := C71_l2error near corner np M hP space ht hT junk e0 vec hv hc g Q
  refine ⟨els, _, h1, h2, Real.sqrt_nonneg _, ?_⟩
  rw [Real.sqrt_eq_zero (surfaceQuad_nonneg _ _ _ _ (fun j hj => (hQ j hj).le) _ fun a p => by positivity)]
  have term : ∀ a, ∀ j < Q.size, 0 ≤ algebraMap ℝ ℝ (getH space.t a ^ 2 * Q.w j) * (‖cross3 (elementPoint space.t space.geo a (Q.xi j)).dx
      (elementPoint space.t space.geo a (Q.xi j)).dy‖ * (g (elementPoint space.t space.geo a (Q.xi j)).f -
      discreteFunction space.trans vec space.t.nElements space.P 0 (space.t.id a) (getH space.t a) (elementPoint space.t space.geo a (Q.xi j)).xi) ^ 2) := by
    intro a j hj
    have := hQ j hj
    simp only [Algebra.algebraMap_self, RingHom.id_apply]
    positivity
  constructor
  · intro h a ha j hj
    unfold surfaceQuad at h
    have h := fun x => List.all_zero_of_le_zero_le_of_sum_eq_zero (x := x) (by
      intro x hx
      obtain ⟨b, _, rfl⟩ := List.mem_map.1 hx
      exact sum_nonneg fun j hj => term b j (mem_range.1 hj)) h
    · have := h _ (List.mem_map.2 ⟨a, ha, rfl⟩)
      rw [sum_eq_zero_iff_of_nonneg fun j hj => term a j (mem_range.1 hj)] at this
      have := this j (mem_range.2 hj)
      have hh : (getH space.t a ^ 2 * Q.w j) ≠ 0 := by
        have := (hQ j hj).ne'
        have : getH space.t a ≠ 0 := by unfold getH; positivity
        positivity
      have hk : ‖cross3 (elementPoint space.t space.geo a (Q.xi j)).dx (elementPoint space.t space.geo a (Q.xi j)).dy‖ ≠ 0 :=
        norm_ne_zero_iff.2 (by
          obtain ⟨t', k1, k2, k3, k4, k5, k6, k7⟩ := tree_facts (K := ℝ) near corner np M hP
          obtain rfl : space.t = t' := Option.some.inj (ht.symm.trans k1)
          rw [elements_eq space.t np M hP k3 k6] at h1
          rw [← Option.some.inj h1] at ha
          exact node_regular near corner np M hP space.t ht space.geo hreg M le_rfl a (mem_leaves.1 ha) _ (hQ1 j hj) 1)
      simp only [Algebra.algebraMap_self, RingHom.id_apply, mul_eq_zero, hh, hk, false_or, pow_eq_zero_iff, ne_eq, OfNat.ofNat_ne_zero,
        not_false_eq_true, sub_eq_zero] at this
      exact this
  · intro h
    rw [surfaceQuad_congr _ _ _ _ _ (fun _ _ => 0)]
    · simp [surfaceQuad]
    · intro a ha j hj
      have e : (elementPoint space.t space.geo a (Q.xi j)).xi = Q.xi j := rfl
      rw [h a ha j hj, e]
      simp

omit hP ht hT in
/-- The difference of the functions of two vectors. -/
theorem discreteFunction_sub (T v w : EMat ℝ) (nE P d n : Nat) (h : ℝ) (s : ℝ × ℝ) :
    discreteFunction T ⟨T.cols, 1, fun i j => v.at' i j - w.at' i j⟩ nE P d n h s = discreteFunction T v nE P d n h s - discreteFunction T w nE P d n h s := by
  rw [← discreteFunction_expand T v, ← discreteFunction_expand T w, ← discreteFunction_expand T ⟨_, _, _⟩, ← sum_sub_distrib]
  exact sum_congr rfl fun c _ => by simp only; ring

/-- C71: if the given function is, at the quadrature nodes, the function of a vector `w`, the error is the norm of `vec - w` given by the
mass matrix (computed with the same rule). -/
theorem C71_mass (junk junk' : Nat → ℝ) (e0 : Evaluator ℝ) (vec w : EMat ℝ) (hv : vec.rows = space.trans.cols) (hc : vec.cols = 1)
    (Q : Cubature ℝ) :
    ∃ els A, elements space.t = some els ∧ LocalOperator.compute junk' identity space Q = some A ∧
      ∀ g : V3 → ℝ, (∀ a ∈ els, ∀ j < Q.size, g (elementPoint space.t space.geo a (Q.xi j)).f =
          discreteFunction space.trans w space.t.nElements space.P 0 (space.t.id a) (getH space.t a) (Q.xi j)) →
        surfaceL2error junk e0 space vec g Q = some (Real.sqrt (∑ c ∈ range space.trans.cols, (vec.at' c 0 - w.at' c 0) *
          ∑ d ∈ range space.trans.cols, A.at' c d * (vec.at' d 0 - w.at' d 0))) := by
  obtain ⟨els, A, h1, h2, -, h4, -⟩ := C62_consistent near corner np M hP space ht hT junk' junk' Q
  refine ⟨els, A, h1, h2, fun g hg => ?_⟩
  obtain ⟨els', k1, k2⟩ := C71_l2error near corner np M hP space ht hT junk e0 vec hv hc g Q
  obtain rfl : els = els' := Option.some.inj (h1.symm.trans k1)
  rw [k2]
  congr 2
  rw [show (∑ c ∈ range space.trans.cols, (vec.at' c 0 - w.at' c 0) * ∑ d ∈ range space.trans.cols, A.at' c d * (vec.at' d 0 - w.at' d 0)) = _
    from h4 ⟨space.trans.cols, 1, fun i j => vec.at' i j - w.at' i j⟩]
  refine surfaceQuad_congr _ _ _ _ _ _ fun a ha j hj => ?_
  have e : (elementPoint space.t space.geo a (Q.xi j)).xi = Q.xi j := rfl
  rw [hg a ha j hj, e, discreteFunction_sub]
  ring

/-- C71: a solution `u` of the linear system with the mass matrix and the load vector of `g` is the best approximation of `g`: for every
vector, the squared error is that of `u` plus the squared distance to `u`.  All three are computed with the same rule. -/
theorem C71_best (junk junk' junk'' : Nat → ℝ) (e0 : Evaluator ℝ) (g : V3 → ℝ) (Q : Cubature ℝ) (hQ : ∀ j < Q.size, 0 ≤ Q.w j) :
    ∃ A b, LocalOperator.compute junk' identity space Q = some A ∧ LinearForm.compute junk'' (LinearForm.dirichlet g) space Q = some b ∧
      ∀ u : EMat ℝ, u.rows = space.trans.cols → u.cols = 1 →
        (∀ c < space.trans.cols, ∑ d ∈ range space.trans.cols, A.at' c d * u.at' d 0 = b.at' c 0) →
        ∀ vec : EMat ℝ, vec.rows = space.trans.cols → vec.cols = 1 →
          ∃ eu ev, surfaceL2error junk e0 space u g Q = some eu ∧ surfaceL2error junk e0 space vec g Q = some ev ∧
            ev ^ 2 = eu ^ 2 + ∑ c ∈ range space.trans.cols, (vec.at' c 0 - u.at' c 0) *
              ∑ d ∈ range space.trans.cols, A.at' c d * (vec.at' d 0 - u.at' d 0) ∧ eu ≤ ev := by
  obtain ⟨els, A, h1, h2, -, h4, h5, -⟩ := C62_consistent near corner np M hP space ht hT junk' junk' Q
  obtain ⟨els', A', m1, m2, -, -, m5⟩ := C62_mass near corner np M hP space ht hT junk' Q
  obtain rfl : els = els' := Option.some.inj (h1.symm.trans m1)
  obtain rfl : A = A' := Option.some.inj (h2.symm.trans m2)
  obtain ⟨els', b, b1, b2, -, -, b5⟩ := C61_dirichlet near corner np M hP space ht hT junk'' Q g
  obtain rfl : els = els' := Option.some.inj (h1.symm.trans b1)
  refine ⟨A, b, h2, b2, fun u hu hu1 hsys vec hv hv1 => ?_⟩
  obtain ⟨els', k1, k2⟩ := C71_l2error near corner np M hP space ht hT junk e0 u hu hu1 g Q
  obtain rfl : els = els' := Option.some.inj (h1.symm.trans k1)
  obtain ⟨els', l1, l2⟩ := C71_l2error near corner np M hP space ht hT junk e0 vec hv hv1 g Q
  obtain rfl : els = els' := Option.some.inj (h1.symm.trans l1)
  set D : EMat ℝ → Addr → SurfPt → ℝ := fun v a p => discreteFunction space.trans v space.t.nElements space.P 0 (space.t.id a) (getH space.t a) p.xi with hD
  have hrow : ∀ (f : EMat ℝ) c, c < space.trans.cols → ∑ d ∈ range space.trans.cols, A.at' c d * f.at' d 0 =
      surfaceQuad space.t space.geo Q els fun a p => ‖cross3 p.dx p.dy‖ * D (unitVec space.trans.cols c) a p * D f a p := by
    intro f c hc
    rw [sum_congr rfl fun d hd => by rw [m5 c hc d (mem_range.1 hd), mul_comm], surfaceQuad_sum _ _ _ _ _ (fun d => f.at' d 0)]
    congr 1
    funext a p
    simp only [hD]
    rw [← discreteFunction_expand _ f, mul_sum]
    exact sum_congr rfl fun d _ => by ring
  set z : EMat ℝ := ⟨space.trans.cols, 1, fun i j => vec.at' i j - u.at' i j⟩ with hz
  -- orthogonality of the error
  have orth : surfaceQuad space.t space.geo Q els (fun a p => ‖cross3 p.dx p.dy‖ * (g p.f - D u a p) * D z a p) = 0 := by
    have e : ∀ c < space.trans.cols, surfaceQuad space.t space.geo Q els (fun a p => ‖cross3 p.dx p.dy‖ * (g p.f - D u a p) *
        D (unitVec space.trans.cols c) a p) = 0 := by
      intro c hc
      have := hsys c hc
      rw [hrow u c hc, b5 c hc] at this
      rw [surfaceQuad_lin space.t space.geo Q els 1 (-1) (fun a p => g p.f * algebraMap ℝ ℝ ‖cross3 p.dx p.dy‖ * D (unitVec space.trans.cols c) a p)
        (fun a p => ‖cross3 p.dx p.dy‖ * D (unitVec space.trans.cols c) a p * D u a p), this]
      · ring
      · intro a p
        simp only [Algebra.algebraMap_self, RingHom.id_apply]
        ring
    have := surfaceQuad_sum space.t space.geo Q els space.trans.cols (fun c => z.at' c 0)
      (fun c a p => ‖cross3 p.dx p.dy‖ * (g p.f - D u a p) * D (unitVec space.trans.cols c) a p)
    rw [sum_congr rfl fun c hc => by rw [e c (mem_range.1 hc), mul_zero], sum_const_zero] at this
    rw [this]
    congr 1
    funext a p
    simp only [hD]
    rw [← discreteFunction_expand _ z, mul_sum]
    exact sum_congr rfl fun d _ => by ring
  have hnn : ∀ v : EMat ℝ, 0 ≤ surfaceQuad space.t space.geo Q els fun a p => ‖cross3 p.dx p.dy‖ * (g p.f - D v a p) ^ 2 := fun v =>
    surfaceQuad_nonneg _ _ _ _ hQ _ fun a p => by positivity
  have pyth : (surfaceQuad space.t space.geo Q els fun a p => ‖cross3 p.dx p.dy‖ * (g p.f - D vec a p) ^ 2) =
      (surfaceQuad space.t space.geo Q els fun a p => ‖cross3 p.dx p.dy‖ * (g p.f - D u a p) ^ 2) +
      ∑ c ∈ range space.trans.cols, (vec.at' c 0 - u.at' c 0) * ∑ d ∈ range space.trans.cols, A.at' c d * (vec.at' d 0 - u.at' d 0) := by
    rw [show (∑ c ∈ range space.trans.cols, (vec.at' c 0 - u.at' c 0) * ∑ d ∈ range space.trans.cols, A.at' c d * (vec.at' d 0 - u.at' d 0)) = _
      from h4 z]
    have e1 := surfaceQuad_lin space.t space.geo Q els 1 (-2) (fun a p => ‖cross3 p.dx p.dy‖ * (g p.f - D u a p) ^ 2 + ‖cross3 p.dx p.dy‖ * D z a p ^ 2)
      (fun a p => ‖cross3 p.dx p.dy‖ * (g p.f - D u a p) * D z a p) (fun a p => ‖cross3 p.dx p.dy‖ * (g p.f - D vec a p) ^ 2) (by
        intro a p
        have : D z a p = D vec a p - D u a p := discreteFunction_sub _ _ _ _ _ _ _ _ _
        rw [this]; ring)
    rw [e1, orth, surfaceQuad_lin space.t space.geo Q els 1 1 (fun a p => ‖cross3 p.dx p.dy‖ * (g p.f - D u a p) ^ 2)
      (fun a p => ‖cross3 p.dx p.dy‖ * D z a p ^ 2) _ fun a p => by ring]
    ring
  refine ⟨_, _, k2, l2, ?_, ?_⟩
  · rw [Real.sq_sqrt (hnn vec), Real.sq_sqrt (hnn u)]
    exact pyth
  · refine Real.sqrt_le_sqrt ?_
    have := h5 hQ z
    have := pyth
    simp only [hD] at this
    linarith

end

/-! ## Non-vacuity -/

/-- Two unit squares side by side with the space of all element-wise polynomials: a setting for C35, C53, C61, C62 and C71. -/
theorem demo_space (M P : Nat) : ∃ space : Space ℝ, initElementTree (fun a b : Nat => a == b) (fun i j => 2 * i + j) 2 M = some space.t ∧ space.P = P ∧
    space.trans = ⟨1 * ((P + 1) * (P + 1) * space.t.nElements), 1 * ((P + 1) * (P + 1) * space.t.nElements), fun i j => if i = j then 1 else 0⟩ ∧
    space.t.nElements = 2 * 4 ^ M ∧ ∀ i s, cross3 (space.geo i s).2.1 (space.geo i s).2.2 = !₂[0, 0, 1] := by
  obtain ⟨t, k1, k2, k3, -⟩ := tree_facts (K := ℝ) (fun (a b : Nat) => a == b) (fun i j => 2 * i + j) 2 M (by omega)
  refine ⟨⟨t, P, fun i s => (!₂[i + s.1, s.2, 0], !₂[1, 0, 0], !₂[0, 1, 0]), ⟨1 * ((P + 1) * (P + 1) * t.nElements), 1 * ((P + 1) * (P + 1) * t.nElements), fun i j => if i = j then 1 else 0⟩⟩, k1, rfl, rfl, k3, fun i s => ?_⟩
  simp [cross3]

/-- The hypotheses of C71 are met by the square example with two refinements, degree 3 and the three point Gauss rule in both directions. -/
example (es : EigenSolver) : ∃ (space : Space ℝ) (els : List Addr) (err : ℝ) (A b : EMat ℝ),
    elements space.t = some els ∧ space.trans.cols = 512 ∧
    surfaceL2error (fun _ => 0) ⟨space, ⟨0, 0, fun _ _ => 0⟩, 0, 0, fun _ => 0⟩ space ⟨512, 1, fun i _ => i⟩ (fun x => x 0) (gaussSquare es 50 2) = some err ∧
    LocalOperator.compute (fun _ => 0) identity space (gaussSquare es 50 2) = some A ∧
    LinearForm.compute (fun _ => 0) (LinearForm.dirichlet fun x => x 0) space (gaussSquare es 50 2) = some b := by
  obtain ⟨space, h1, h2, h3, h4, h5⟩ := demo_space 2 3
  have hT : space.trans.rows = 1 * ((space.P + 1) * (space.P + 1) * space.t.nElements) := by rw [h3, h2]
  have hcols : space.trans.cols = 512 := by rw [h3, h4]; norm_num
  have hsel : gaussSquare es 50 2 = tensorRule (gaussLegendreRule es 3) := (C46_select (gaussLegendreRule es) 50 2 (by norm_num)).2
  have hQ : ∀ j < (gaussSquare es 50 2).size, 0 < (gaussSquare es 50 2).w j := by
    intro j hj
    rw [hsel] at hj ⊢
    obtain ⟨q1, q2, -⟩ := C47_tables es 3 (by norm_num) (by norm_num)
    have hj : j < (gaussLegendreRule es 3).size * (gaussLegendreRule es 3).size := hj
    rw [q1] at hj
    have e : (tensorRule (gaussLegendreRule es 3)).w j = (gaussLegendreRule es 3).w (j / 3) * (gaussLegendreRule es 3).w (j % 3) := by
      simp only [tensorRule, q1]
    rw [e]
    exact mul_pos (q2 _ (by omega)).2.2 (q2 _ (by omega)).2.2
  have hQ1 : ∀ j < (gaussSquare es 50 2).size, Spec.ClosedSquare ((gaussSquare es 50 2).xi j) := by
    rw [hsel]
    obtain ⟨q1, q2, -⟩ := C47_tables es 3 (by norm_num) (by norm_num)
    exact tensorRule_closed _ fun i hi => ⟨(q2 i (q1 ▸ hi)).1.le, (q2 i (q1 ▸ hi)).2.1.le⟩
  have hreg : Spec.RegularPatches 2 space.geo := by
    intro i _ s _ h
    rw [h5] at h
    have := congrFun (congrArg WithLp.ofLp h) 2
    simp at this
  obtain ⟨els, err, a1, a2, -⟩ := C71_zero _ _ 2 2 (by norm_num) space h1 hT hreg (fun _ => 0) ⟨space, ⟨0, 0, fun _ _ => 0⟩, 0, 0, fun _ => 0⟩
    ⟨512, 1, fun i _ => i⟩ hcols.symm rfl (fun x => x 0) (gaussSquare es 50 2) hQ hQ1
  obtain ⟨A, b, b1, b2, -⟩ := C71_best _ _ 2 2 (by norm_num) space h1 hT (fun _ => 0) (fun _ => 0) (fun _ => 0)
    ⟨space, ⟨0, 0, fun _ _ => 0⟩, 0, 0, fun _ => 0⟩ (fun x => x 0) (gaussSquare es 50 2) fun j hj => (hQ j hj).le
  exact ⟨space, els, err, A, b, a1, hcols, a2, b1, b2⟩

end Bembel.Props
