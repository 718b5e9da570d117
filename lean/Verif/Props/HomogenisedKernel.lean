import Verif.Props.HomogenisedFit
/-!
# Property theorems C66: fit and mean of the homogenised kernel
-/

namespace Bembel.Props
open Spec Sph Homog Finset

theorem scale_eq (cs : List ℝ) (deg : Nat) (norm : ℝ) (tmp : Nat → ℝ) :
    (∀ n i, 1 ≤ n → n ≤ deg → n * n ≤ i → i < (n + 1) * (n + 1) → scaleCoefficients cs deg norm tmp i = norm ^ n * cs.getD i 0) ∧
    scaleCoefficients cs deg norm tmp 0 = tmp 0 := by
  unfold scaleCoefficients
  induction deg with
  | zero => exact ⟨fun n i h1 h2 => by omega, rfl⟩
  | succ d ih =>
    simp only [List.range_succ, List.foldl_append, List.foldl_cons, List.foldl_nil]
    refine ⟨fun n i h1 h2 h3 h4 => ?_, ?_⟩
    · by_cases e : n = d + 1
      · subst e
        rw [if_pos ⟨h3, by nlinarith⟩]
      · have : (n + 1) * (n + 1) ≤ (d + 1) * (d + 1) := Nat.mul_le_mul (by omega) (by omega)
        rw [if_neg (by omega)]
        exact ih.1 n i h1 (by omega) h3 h4
    · rw [if_neg (by intro h; have := h.1; nlinarith)]
      exact ih.2

theorem entry_bounds {n : Nat} {m : Int} (h1 : -n ≤ m) (h2 : m ≤ n) : n * n ≤ entry n m ∧ entry n m < (n + 1) * (n + 1) := by
  unfold entry
  have h : (0 : Int) ≤ (n : Int) * n + n + m := by nlinarith [mul_self_nonneg (n : Int)]
  constructor
  · zify
    rw [Int.toNat_of_nonneg h]; linarith
  · zify
    rw [Int.toNat_of_nonneg h]; nlinarith

/-- The series evaluated on the sphere for the scaled coefficients. -/
theorem sphere_value (cs : List ℝ) (deg : Nat) (hd : 1 ≤ deg) (hl : (deg + 1) * (deg + 1) ≤ cs.length) (hsym : SymmetricUpTo deg (coefficient cs))
    (h00 : coefficient cs 0 0 = 0) (tmp : Nat → ℝ) (ht : tmp 0 = 0) (x : V3) (hx : x ≠ 0) (norm : ℝ) (hn : norm = ‖x‖) :
    evaluateSphericals ((1 / norm) • x) ((List.range cs.length).map (scaleCoefficients cs deg norm tmp)) deg =
      some (solidExpansion (deg - 1) (coefficient cs) x) := by
  subst hn
  have hr : ‖x‖ ≠ 0 := norm_ne_zero_iff.2 hx
  have hy : ‖(1 / ‖x‖) • x‖ = 1 := by rw [norm_smul, norm_div, norm_one, norm_norm]; field_simp
  have hdd : deg * deg ≤ (deg + 1) * (deg + 1) := Nat.mul_le_mul (by omega) (by omega)
  obtain ⟨r, h1, h2⟩ := C55_sphericals ((1 / ‖x‖) • x) ((List.range cs.length).map (scaleCoefficients cs deg ‖x‖ tmp)) deg hy
    (by rw [List.length_map, List.length_range]; omega) (by rw [List.length_map, List.length_range]; nlinarith)
  rw [h1]
  congr 1
  have h3 := congrArg Complex.re h2
  rw [Complex.ofReal_re] at h3
  rw [h3, max_eq_left hd]
  unfold harmonicSeries solidExpansion
  rw [Complex.re_sum, show deg - 1 + 1 = deg by omega]
  refine sum_congr rfl fun n hn => ?_
  have hn := mem_range.1 hn
  rw [Complex.re_sum]
  refine sum_congr rfl fun m hm => ?_
  obtain ⟨m1, m2⟩ := mem_Icc.1 hm
  have ha : |m| ≤ n := abs_le.2 ⟨m1, m2⟩
  have hb := entry_bounds (n := n) (m := |m|) (by have := abs_nonneg m; omega) ha
  have hlt := entry_lt (n := n) (N := deg) (m := |m|) (by have := abs_nonneg m; omega) ha (by omega)
  rw [Complex.re_ofReal_mul]
  beta_reduce
  rw [coefficient_list _ _ _ _ (hlt.trans_le hl)]
  have hc : coefficient cs n |m| = coefficient cs n m := by
    rcases abs_cases m with ⟨e, _⟩ | ⟨e, _⟩
    · rw [e]
    · rw [e, hsym n (by omega) m m1 m2]
  rcases Nat.eq_zero_or_pos n with h0 | h0
  · subst h0
    obtain rfl : m = 0 := by omega
    rw [h00, show entry 0 |0| = 0 from rfl, (scale_eq cs deg ‖x‖ tmp).2, ht]; simp
  · rw [(scale_eq cs deg ‖x‖ tmp).1 n _ h0 (by omega) hb.1 hb.2]
    have : cs.getD (entry n |m|) 0 = coefficient cs n |m| := rfl
    rw [this, hc]; ring

theorem first_eq (cs : List ℝ) (deg : Nat) (hd : 1 ≤ deg) (hl : (deg + 1) * (deg + 1) ≤ cs.length) (hsym : SymmetricUpTo deg (coefficient cs))
    (h00 : coefficient cs 0 0 = 0) (Q : Cubature ℝ) : calculateFirstCoefficient cs deg (facePoint Q) Q.size Q.w =
      some (-2 * Real.sqrt Real.pi * ((∑ k ∈ range Q.size, ∑ f, Q.w k * expandedKernel (deg - 1) (coefficient cs) (cubeFace f (Q.xi k))) / 3 + 1 / 24)) := by
  unfold calculateFirstCoefficient
  rw [if_neg (by omega)]
  obtain ⟨st, h1, h2, h3⟩ := foldlM_range_inv (firstStep cs deg (facePoint Q) Q.w)
    (fun n st => st.1 = (∑ k ∈ range n, ∑ f, Q.w k * expandedKernel (deg - 1) (coefficient cs) (cubeFace f (Q.xi k))) ∧ st.2 0 = 0)
    Q.size (0, fun _ => 0) (by simp) (by
      intro k hk st hst
      unfold firstStep
      simp only [facePoint_eq]
      have o := fun f => off_ne_zero (off_face f (Q.xi k)).1
      rw [sphere_value cs deg hd hl hsym h00 st.2 hst.2 _ (o 0) _ rfl, sphere_value cs deg hd hl hsym h00 st.2 hst.2 _ (o 1) _ (norm_face' 1 _).symm,
        sphere_value cs deg hd hl hsym h00 st.2 hst.2 _ (o 2) _ (norm_face' 2 _).symm]
      simp only [Option.bind_eq_bind, Option.bind_some]
      refine ⟨_, rfl, ?_, ?_⟩
      · simp only []
        rw [sum_range_succ, Fin.sum_univ_three, hst.1]
        simp only [expandedKernel, C65_modified]
        ring
      · simp only []
        rw [(scale_eq cs deg _ st.2).2, hst.2])
  simp only [h1, Option.bind_eq_bind, Option.bind_some, h2]

/-- C66: for a face rule with at least 441 points, a degree at least one and an exact least squares solver, the coefficients are computed,
there are `(deg + 1)²` of them, they agree for the orders `m` and `-m`, and the kernel with these coefficients has the smallest
periodicity error among all kernels with such coefficients.  If the weights sum to one, the face mean of the kernel truncated at degree
`deg - 1` is `-1/24`. -/
theorem C66_fit_rule (J : Nat → Fin 3 → Bool → Fresh) (F : Fresh) (solve : Solver) (hsolve : ∀ r c A b, LeastSquares r c A b (solve r c A b))
    (Q : Cubature ℝ) (hQ : mSquare ≤ Q.size) (deg : Nat) (hd : 1 ≤ deg) : ∃ cs, coefficientsFor J F solve Q deg = some cs ∧
      cs.length = (deg + 1) * (deg + 1) ∧ SymmetricUpTo deg (coefficient cs) ∧
      (∀ c, SymmetricUpTo deg c → periodicityError mSquare Q.xi (expandedKernel deg (coefficient cs)) ≤
        periodicityError mSquare Q.xi (expandedKernel deg c)) ∧
      (∑ k ∈ range Q.size, Q.w k = 1 →
        (1 / 3) * ∑ f, ∑ k ∈ range Q.size, Q.w k * expandedKernel (deg - 1) (coefficient cs) (cubeFace f (Q.xi k)) = -1 / 24) := by
  obtain ⟨A, hA1, hA2⟩ := systemMatrix_eq J F.mat Q deg hd
  unfold coefficientsFor
  rw [if_neg (by omega)]
  simp only [hA1, Option.bind_eq_bind, Option.bind_some]
  set d := getDisplacement F.vals.1 (facePoint Q) with hdis
  set sol := solve (6 * mSquare) ((deg + 1) * (deg + 2) / 2 - 1) A (fun i => -d i) with hsol
  set co : Nat → ℝ := fun i => if 1 ≤ i then sol (i - 1) else 0 with hco
  obtain ⟨f0, full, e1, e2, e3⟩ := copy_eq deg co F.vec (by simp [hco])
  simp only [e1, e2, Option.bind_some]
  set cs0 := (List.range ((deg + 1) * (deg + 1))).map full with hcs0
  have hpos : 0 < (deg + 1) * (deg + 1) := by positivity
  have hc0 : ∀ n ≤ deg, ∀ m : Int, -n ≤ m → m ≤ n → coefficient cs0 n m = co (tri n + m.natAbs) := fun n hn m m1 m2 => by
    rw [hcs0, coefficient_list _ _ _ _ (entry_lt m1 m2 hn), rowInv_entry e3 n hn m m1 m2]
  have hsym0 : SymmetricUpTo deg (coefficient cs0) := fun n hn m m1 m2 => by
    rw [hc0 n hn m m1 m2, hc0 n hn (-m) (by omega) (by omega), Int.natAbs_neg]
  have h00 : coefficient cs0 0 0 = 0 := by rw [hc0 0 (by omega) 0 (by simp) (by simp)]; simp [hco, tri]
  rw [first_eq cs0 deg hd (by rw [hcs0, List.length_map, List.length_range]) hsym0 h00 Q]
  simp only [Option.bind_some]
  generalize hc1 : -2 * Real.sqrt Real.pi * ((∑ k ∈ range Q.size, ∑ f, Q.w k * expandedKernel (deg - 1) (coefficient cs0) (cubeFace f (Q.xi k))) / 3 + 1 / 24) = c1
  have ev : vput ((deg + 1) * (deg + 1)) full 0 c1 = some (Function.update full 0 c1) := by unfold vput; rw [if_pos hpos]
  simp only [ev, Option.bind_some]
  set cs := (List.range ((deg + 1) * (deg + 1))).map (Function.update full 0 c1) with hcs
  have hcn : ∀ n, 1 ≤ n → n ≤ deg → ∀ m : Int, -n ≤ m → m ≤ n → coefficient cs n m = co (tri n + m.natAbs) := fun n h1 hn m m1 m2 => by
    have hb := entry_bounds m1 m2
    rw [hcs, coefficient_list _ _ _ _ (entry_lt m1 m2 hn), Function.update_of_ne (by nlinarith [hb.1]), rowInv_entry e3 n hn m m1 m2]
  have hc00 : coefficient cs 0 0 = c1 := by
    rw [hcs, coefficient_list _ _ _ _ (entry_lt (N := deg) (by simp) (by simp) (by omega))]; exact Function.update_self _ _ _
  have hsym : SymmetricUpTo deg (coefficient cs) := fun n hn m m1 m2 => by
    rcases Nat.eq_zero_or_pos n with h0 | h0
    · subst h0
      obtain rfl : m = 0 := by omega
      rfl
    · rw [hcn n h0 hn m m1 m2, hcn n h0 hn (-m) (by omega) (by omega), Int.natAbs_neg]
  refine ⟨cs, rfl, by rw [hcs, List.length_map, List.length_range], hsym, fun c hc => ?_, fun hw => ?_⟩
  · obtain ⟨h, hh⟩ := exists_half deg c
    have ht : (deg + 1) * (deg + 2) / 2 - 1 = tri (deg + 1) - 1 := rfl
    rw [residual deg Q F.vals.1 A hA2 c h hc hh, residual deg Q F.vals.1 A hA2 (coefficient cs) sol hsym (by
      intro n m h1 h2 hm
      rw [hcn n h1 h2 m (by omega) (by omega), Int.natAbs_natCast, hco]
      obtain ⟨k, rfl⟩ : ∃ k, n = k + 1 := ⟨n - 1, by omega⟩
      have := hom_tri_pos k
      simp only []
      rw [if_pos (by omega)]
      congr 1
      omega)]
    have := hsolve (6 * mSquare) ((deg + 1) * (deg + 2) / 2 - 1) A (fun i => -d i) h
    rw [← hsol, ht] at this
    exact this
  · have hK : ∀ x, expandedKernel (deg - 1) (coefficient cs) x = expandedKernel (deg - 1) (coefficient cs0) x + c1 * (0.5 / Real.sqrt Real.pi) := by
      intro x
      unfold expandedKernel
      rw [add_assoc]
      congr 1
      unfold solidExpansion
      rw [sum_range_succ', sum_range_succ']
      have a0 : ∑ m ∈ Icc (-((0 : Nat) : Int)) (0 : Nat), coefficient cs 0 m * (‖x‖ ^ 0 * (harmonic 0 m ((1 / ‖x‖) • x)).re) = c1 * (0.5 / Real.sqrt Real.pi) := by
        rw [degree_sum 0 (coefficient cs 0) (hsym 0 (by omega)) x]
        simp [ss_zero, fac, hc00]
      have a1 : ∑ m ∈ Icc (-((0 : Nat) : Int)) (0 : Nat), coefficient cs0 0 m * (‖x‖ ^ 0 * (harmonic 0 m ((1 / ‖x‖) • x)).re) = 0 := by
        rw [degree_sum 0 (coefficient cs0 0) (hsym0 0 (by omega)) x]
        simp [h00]
      rw [a0, a1, add_zero]
      congr 1
      refine sum_congr rfl fun n hn => sum_congr rfl fun m hm => ?_
      have hn := mem_range.1 hn
      obtain ⟨m1, m2⟩ := mem_Icc.1 hm
      rw [hcn (n + 1) (by omega) (by omega) m m1 m2, hc0 (n + 1) (by omega) m m1 m2]
    rw [sum_comm]
    simp only [hK, mul_add, sum_add_distrib, Finset.sum_const, card_univ, Fintype.card_fin, nsmul_eq_mul]
    rw [← mul_sum, ← sum_mul, hw]
    have hpi : Real.sqrt Real.pi ≠ 0 := (Real.sqrt_pos.2 Real.pi_pos).ne'
    generalize (∑ k ∈ range Q.size, ∑ f, Q.w k * expandedKernel (deg - 1) (coefficient cs0) (cubeFace f (Q.xi k))) = S at hc1 ⊢
    rw [← hc1]
    push_cast
    field_simp
    ring

/-- C66: the face rule has 441 points whose weights sum to one. -/
theorem rule_facts (es : EigenSolver) : (gaussSquare es pointDegree pointDegree).size = mSquare ∧
    (SolverCorrect es → ∑ k ∈ range mSquare, (gaussSquare es pointDegree pointDegree).w k = 1) := by
  have e : gaussSquare es pointDegree pointDegree = tensorRule (gaussLegendreRule es (pointDegree + 1)) := (C46_select _ _ _ le_rfl).2
  have e2 : gaussLegendreRule es (pointDegree + 1) = gaussLegendreGeneric es (pointDegree + 1) := by
    simp only [gaussLegendreRule]; rfl
  rw [e, e2]
  refine ⟨rfl, fun hes => ?_⟩
  have h := C47_generic es (pointDegree + 1) (by omega) (hes _ _) 1 (by simp)
  simp only [Polynomial.eval_one, mul_one, intervalIntegral.integral_const, sub_zero, smul_eq_mul] at h
  have hs := C46_sum (gaussLegendreGeneric es (pointDegree + 1)) (fun w _ => w)
  refine (show _ = _ from hs).trans ?_
  simp only [← mul_sum, ← sum_mul]
  rw [h, one_mul]

theorem getDegree_cases (p : ℝ) : (getDegree p = 4 ∧ 1e-4 < p) ∨ (getDegree p = 8 ∧ 1e-6 < p ∧ p ≤ 1e-4) ∨ (getDegree p = 12 ∧ p ≤ 1e-6) := by
  unfold getDegree
  by_cases h1 : p > 1e-4
  · rw [if_pos h1]; exact Or.inl ⟨rfl, h1⟩
  · rw [if_neg h1]
    by_cases h2 : p > 1e-6
    · rw [if_pos h2]; exact Or.inr (Or.inl ⟨rfl, h2, not_lt.1 h1⟩)
    · rw [if_neg h2]; exact Or.inr (Or.inr ⟨rfl, not_lt.1 h2⟩)

/-- C66: `getCoefficients` terminates for every precision and content of the fresh memory; the degree is 4, 8 or 12, and the coefficients
are those of the kernel with the smallest periodicity error at the points of the Gauss rule with 21 by 21 points on the faces. -/
theorem C66_fit (es : EigenSolver) (J : Nat → Fin 3 → Bool → Fresh) (F : Fresh) (solve : Solver)
    (hsolve : ∀ r c A b, LeastSquares r c A b (solve r c A b)) (precision : ℝ) :
    ∃ deg cs, deg = (if precision > 1e-4 then 4 else if precision > 1e-6 then 8 else 12) ∧ deg = getDegree precision ∧
      getCoefficients es J F solve precision = some cs ∧ cs.length = (deg + 1) * (deg + 1) ∧ SymmetricUpTo deg (coefficient cs) ∧
      (∀ c, SymmetricUpTo deg c → periodicityError 441 (gaussSquare es 20 20).xi (expandedKernel deg (coefficient cs)) ≤
        periodicityError 441 (gaussSquare es 20 20).xi (expandedKernel deg c)) ∧
      (SolverCorrect es → (1 / 3) * ∑ f, ∑ k ∈ range 441, (gaussSquare es 20 20).w k *
        expandedKernel (deg - 1) (coefficient cs) (cubeFace f ((gaussSquare es 20 20).xi k)) = -1 / 24) := by
  have hr := rule_facts es
  have hd : 1 ≤ getDegree precision := by rcases getDegree_cases precision with h | h | h <;> omega
  obtain ⟨cs, h1, h2, h3, h4, h5⟩ := C66_fit_rule J F solve hsolve (gaussSquare es pointDegree pointDegree) hr.1.ge (getDegree precision) hd
  refine ⟨getDegree precision, cs, ?_, rfl, h1, h2, h3, h4, fun hes => ?_⟩
  · unfold getDegree; congr
  · have := h5 (by rw [hr.1]; exact hr.2 hes)
    rw [hr.1] at this
    exact this

end Bembel.Props
