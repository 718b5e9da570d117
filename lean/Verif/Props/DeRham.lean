import Verif.Lemmas.DeRham
import Verif.Props.Divergence
import Verif.Props.SurfaceLaplacian
/-!
# C86: the ansatz spaces form a de Rham sequence
-/

set_option linter.unusedSectionVars false

open Finset

namespace Bembel.Props
open Spec Spl Mesh Projector Glue Ansatz Refine SpaceExact DeRham

variable {V : Type} (near : V → V → Bool) (corner : Nat → Nat → V)
variable {R : Type} [Field R] [Algebra ℝ R]

theorem DeRham.discreteDiv_eq (T f : EMat R) (nE P n : Nat) (h : ℝ) (s : ℝ × ℝ) :
    discreteDiv T f nE P n h s = discreteDx T f nE P 0 n h s + discreteDy T f nE P 1 n h s := by
  unfold discreteDiv discreteDx discreteDy
  rw [← mul_add, ← sum_add_distrib]

/-- C86 (curl): for every function of the continuous space of degree `P` there is a field of the divergence conforming space of degree `P`
(same refinement level and knot repetition) which is its surface curl: the components are the partial derivatives in the patch coordinates,
exchanged and one of them negated.  The divergence of this field vanishes. -/
theorem C86_curl (junk : Nat → ℝ) (junkM : Nat → Nat → ℝ) (solve) (hs : SolvesSystems solve)
    (P M nP rep : Nat) (hnP : 0 < nP) (hP0 : 0 < P) (hP : P ≤ 4) (hrep : 1 ≤ rep) (hrP : rep ≤ P)
    (hc : ConformingPatches near corner nP) (ho : OrientedPatches corner nP)
    (t : Mesh.Tree ℝ) (ht : initElementTree near corner nP M = some t)
    (T0 T1 : EMat ℝ) (hT0 : transformationCont junk junkM solve t P M nP rep = some T0) (hT1 : transformationDiv junk junkM solve t P M nP rep = some T1)
    (f : EMat R) :
    ∃ g : EMat R, g.rows = T1.cols ∧ g.cols = 1 ∧ ∀ a, IsNode nP M a → ∀ s : ℝ × ℝ, 0 ≤ s.1 → s.1 < 1 → 0 ≤ s.2 → s.2 < 1 →
      discreteFunction (ofReal R T1) g (nP * 4 ^ M) P 0 (t.id a) (1 / 2 ^ M) s = discreteDy (ofReal R T0) f (nP * 4 ^ M) P 0 (t.id a) (1 / 2 ^ M) s ∧
      discreteFunction (ofReal R T1) g (nP * 4 ^ M) P 1 (t.id a) (1 / 2 ^ M) s = -discreteDx (ofReal R T0) f (nP * 4 ^ M) P 0 (t.id a) (1 / 2 ^ M) s ∧
      discreteDiv (ofReal R T1) g (nP * 4 ^ M) P (t.id a) (1 / 2 ^ M) s = 0 := by
  obtain ⟨F, F1, F2, F3⟩ := (C80_continuous (R := R) near corner junk junkM solve hs P M nP rep hnP hP0 hP hrep hrP hc ho t ht T0 hT0).2 f
  choose! γ hγ using F1
  have hm : MatchAcross corner nP (2 ^ M) fun p => splineFun (P + 1) (P + 1) (2 ^ M) rep (γ p) := by
    intro p hp q hq hpq i hi k hk he Y hY s h0 h1
    have := F2 p hp q hq hpq i hi k hk he Y hY s h0 h1
    obtain ⟨b1, b2⟩ := on_edge (2 ^ M) Y hY s h0 h1
    obtain ⟨e1, e2, e3, e4⟩ := edge_in_square i _ b1 b2
    obtain ⟨e5, e6, e7, e8⟩ := edge_in_square k (1 - ((Y : ℝ) + s) / (2 ^ M : Nat)) (by linarith) (by linarith)
    rw [hγ p hp _ e1 e2 e3 e4, hγ q hq _ e5 e6 e7 e8] at this
    exact this
  have hf := curl_flow corner P nP (2 ^ M) rep hP0 hrep hrP γ hm
  obtain ⟨g, g1, g2, g3⟩ := (C80_divergence (R := R) near corner junk junkM solve hs P M nP rep hnP hP0 hP hrep hrP hc t ht T1 hT1).1
    (fun d p => curlSpline P (2 ^ M) rep (γ p) d)
    (fun p _ => ⟨_, fun x _ _ _ _ => by unfold curlSpline; rw [if_pos rfl]; rfl⟩)
    (fun p _ => ⟨fun c => (-1 : ℝ) • dCoefX P (2 ^ M) rep (γ p) c, fun x _ _ _ _ => by
      unfold curlSpline
      rw [if_neg (by norm_num)]
      have := splineFun_smul P (P + 1) (2 ^ M) rep (dCoefX P (2 ^ M) rep (γ p)) (-1 : ℝ) x
      rw [neg_one_smul] at this
      exact this.symm⟩) hf
  refine ⟨g, g1, g2, fun a ha s h1 h2 h3 h4 => ?_⟩
  obtain ⟨p1, p2, px, py⟩ := place near corner nP M hnP t ht a ha
  have hpa : t.patch a < nP := by rw [p1]; exact ha.1
  have u : ∀ s : ℝ × ℝ, 0 ≤ s.1 → s.1 < 1 → 0 ≤ s.2 → s.2 < 1 → discreteFunction (ofReal R T0) f (nP * 4 ^ M) P 0 (t.id a) (1 / 2 ^ M) s =
      splineFun (P + 1) (P + 1) (2 ^ M) rep (γ (t.patch a)) ((posX a.2 : ℝ) / 2 ^ M + s.1 / 2 ^ M, (posY a.2 : ℝ) / 2 ^ M + s.2 / 2 ^ M) := by
    intro s h1 h2 h3 h4
    obtain ⟨i1, i2⟩ := in_square M _ px s.1 h1 h2
    obtain ⟨i3, i4⟩ := in_square M _ py s.2 h3 h4
    rw [F3 a ha s h1 h2 h3 h4, p2]
    exact hγ _ hpa _ i1 i2 i3 i4
  have v0 : ∀ s : ℝ × ℝ, 0 ≤ s.1 → s.1 < 1 → 0 ≤ s.2 → s.2 < 1 → discreteFunction (ofReal R T1) g (nP * 4 ^ M) P 0 (t.id a) (1 / 2 ^ M) s =
      splineFun (P + 1) P (2 ^ M) rep (dCoefY (P + 1) P (2 ^ M) rep (γ (t.patch a))) ((posX a.2 : ℝ) / 2 ^ M + s.1 / 2 ^ M, (posY a.2 : ℝ) / 2 ^ M + s.2 / 2 ^ M) := by
    intro s h1 h2 h3 h4
    rw [g3 a ha s h1 h2 h3 h4 0 (by norm_num), p2]
    rfl
  have v1 : ∀ s : ℝ × ℝ, 0 ≤ s.1 → s.1 < 1 → 0 ≤ s.2 → s.2 < 1 → discreteFunction (ofReal R T1) g (nP * 4 ^ M) P 1 (t.id a) (1 / 2 ^ M) s =
      splineFun P (P + 1) (2 ^ M) rep (fun c => (-1 : ℝ) • dCoefX P (2 ^ M) rep (γ (t.patch a)) c) ((posX a.2 : ℝ) / 2 ^ M + s.1 / 2 ^ M, (posY a.2 : ℝ) / 2 ^ M + s.2 / 2 ^ M) := by
    intro s h1 h2 h3 h4
    rw [g3 a ha s h1 h2 h3 h4 1 (by norm_num), p2, splineFun_smul, neg_one_smul]
    rfl
  refine ⟨?_, ?_, ?_⟩
  · rw [v0 s h1 h2 h3 h4]
    exact (element_dy P (P + 1) P M rep _ _ (by omega) hP0 hrep hrP py _ f _ _ _ _ u s h1 h2 h3 h4).symm
  · rw [v1 s h1 h2 h3 h4, splineFun_smul, neg_one_smul,
      element_dx P P (P + 1) M rep _ _ hP0 hrep hrP px _ f _ _ _ _ u s h1 h2 h3 h4]
  · rw [DeRham.discreteDiv_eq, element_dx P P P M rep _ _ hP0 hrep hrP px _ g _ _ _ _ v0 s h1 h2 h3 h4,
      element_dy P P P M rep _ _ hP0 hP0 hrep hrP py _ g _ _ _ _ v1 s h1 h2 h3 h4, ← one_smul ℝ (splineFun P P _ _ (dCoefX _ _ _ _) _)]
    have : ∀ c, dCoefY P P (2 ^ M) rep (fun c => (-1 : ℝ) • dCoefX P (2 ^ M) rep (γ (t.patch a)) c) c =
        (-1 : ℝ) • dCoefX P (2 ^ M) rep (dCoefY (P + 1) P (2 ^ M) rep (γ (t.patch a))) c := by
      intro c
      rw [dCoef_comm P P (2 ^ M) rep hP0]
      unfold dCoefY
      rw [smul_sum]
      exact sum_congr rfl fun j _ => smul_comm _ _ _
    rw [splineFun_congr P P (2 ^ M) rep _ _ (fun c _ => this c), splineFun_smul, ← add_smul]
    norm_num

/-- C86 (divergence): the divergence of every field of the divergence conforming space of degree `P` is a function of the discontinuous space
of degree `P - 1` (same refinement level and knot repetition). -/
theorem C86_divergence (junk : Nat → ℝ) (junkM : Nat → Nat → ℝ) (solve) (hs : SolvesSystems solve)
    (P M nP rep : Nat) (hnP : 0 < nP) (hP0 : 0 < P) (hP : P ≤ 4) (hrep : 1 ≤ rep) (hrP : rep ≤ P)
    (hc : ConformingPatches near corner nP)
    (t : Mesh.Tree ℝ) (ht : initElementTree near corner nP M = some t)
    (T1 T2 : EMat ℝ) (hT1 : transformationDiv junk junkM solve t P M nP rep = some T1) (hT2 : transformationDisc junk junkM solve t (P - 1) M nP rep = some T2)
    (f : EMat R) :
    ∃ g : EMat R, g.rows = T2.cols ∧ g.cols = 1 ∧ ∀ a, IsNode nP M a → ∀ s : ℝ × ℝ, 0 ≤ s.1 → s.1 < 1 → 0 ≤ s.2 → s.2 < 1 →
      discreteFunction (ofReal R T2) g (nP * 4 ^ M) (P - 1) 0 (t.id a) (1 / 2 ^ M) s = discreteDiv (ofReal R T1) f (nP * 4 ^ M) P (t.id a) (1 / 2 ^ M) s := by
  obtain ⟨F, F0, F1, -, F3⟩ := (C80_divergence (R := R) near corner junk junkM solve hs P M nP rep hnP hP0 hP hrep hrP hc t ht T1 hT1).2 f
  choose! γ hγ using F0
  choose! δ hδ using F1
  have hmin : min rep (P - 1 + 1) = rep := by omega
  have hP1 : P - 1 + 1 = P := by omega
  obtain ⟨g, g1, g2, g3⟩ := (C80_discontinuous (R := R) near corner junk junkM solve hs (P - 1) M nP rep hnP (by omega) hrep t ht T2 hT2).1
    (fun p x => splineFun P P (2 ^ M) rep (dCoefX P (2 ^ M) rep (γ p)) x + splineFun P P (2 ^ M) rep (dCoefY P P (2 ^ M) rep (δ p)) x)
    (fun p _ => by
      rw [hmin, hP1]
      exact ⟨fun c => dCoefX P (2 ^ M) rep (γ p) c + dCoefY P P (2 ^ M) rep (δ p) c, fun x _ _ _ _ => by
        unfold splineFun
        simp only []
        rw [← sum_add_distrib]
        exact sum_congr rfl fun c _ => (smul_add _ _ _).symm⟩)
  refine ⟨g, g1, g2, fun a ha s h1 h2 h3 h4 => ?_⟩
  obtain ⟨p1, p2, px, py⟩ := place near corner nP M hnP t ht a ha
  have hpa : t.patch a < nP := by rw [p1]; exact ha.1
  rw [g3 a ha s h1 h2 h3 h4, DeRham.discreteDiv_eq, p2]
  congr 1
  · refine (element_dx P P P M rep _ _ hP0 hrep hrP px _ f _ _ _ _ ?_ s h1 h2 h3 h4).symm
    intro s h1 h2 h3 h4
    obtain ⟨i1, i2⟩ := in_square M _ px s.1 h1 h2
    obtain ⟨i3, i4⟩ := in_square M _ py s.2 h3 h4
    rw [F3 a ha s h1 h2 h3 h4 0 (by norm_num), p2]
    exact hγ _ hpa _ i1 i2 i3 i4
  · refine (element_dy P P P M rep _ _ hP0 hP0 hrep hrP py _ f _ _ _ _ ?_ s h1 h2 h3 h4).symm
    intro s h1 h2 h3 h4
    obtain ⟨i1, i2⟩ := in_square M _ px s.1 h1 h2
    obtain ⟨i3, i4⟩ := in_square M _ py s.2 h3 h4
    rw [F3 a ha s h1 h2 h3 h4 1 (by norm_num), p2]
    exact hδ _ hpa _ i1 i2 i3 i4

/-- C86 (kernel): on a connected surface the curl of a function of the continuous space vanishes exactly if the function is constant. -/
theorem C86_kernel (junk : Nat → ℝ) (junkM : Nat → Nat → ℝ) (solve) (hs : SolvesSystems solve)
    (P M nP rep : Nat) (hnP : 0 < nP) (hP0 : 0 < P) (hP : P ≤ 4) (hrep : 1 ≤ rep) (hrP : rep ≤ P)
    (hc : ConformingPatches near corner nP) (ho : OrientedPatches corner nP) (hconn : ConnectedPatches corner nP)
    (t : Mesh.Tree ℝ) (ht : initElementTree near corner nP M = some t)
    (T0 : EMat ℝ) (hT0 : transformationCont junk junkM solve t P M nP rep = some T0) (f : EMat ℝ) :
    (∀ a, IsNode nP M a → ∀ s : ℝ × ℝ, 0 ≤ s.1 → s.1 < 1 → 0 ≤ s.2 → s.2 < 1 →
      discreteDy (ofReal ℝ T0) f (nP * 4 ^ M) P 0 (t.id a) (1 / 2 ^ M) s = 0 ∧ discreteDx (ofReal ℝ T0) f (nP * 4 ^ M) P 0 (t.id a) (1 / 2 ^ M) s = 0) ↔
    ∃ κ : ℝ, ∀ a, IsNode nP M a → ∀ s : ℝ × ℝ, 0 ≤ s.1 → s.1 < 1 → 0 ≤ s.2 → s.2 < 1 →
      discreteFunction (ofReal ℝ T0) f (nP * 4 ^ M) P 0 (t.id a) (1 / 2 ^ M) s = κ := by
  have hp : (2 ^ M : ℝ) ≠ 0 := by positivity
  have hh : (1 / 2 ^ M : ℝ) ≠ 0 := by positivity
  constructor
  · intro h
    have coef : ∀ a, IsNode nP M a → ∀ i < (P + 1) * (P + 1), localCoeff (ofReal ℝ T0) f (nP * 4 ^ M) P 0 (t.id a) i = localCoeff (ofReal ℝ T0) f (nP * 4 ^ M) P 0 (t.id a) 0 := by
      intro a ha
      have x01 : ∀ k < P + 1, 0 ≤ ((k : ℝ) + 1) / (P + 2) ∧ ((k : ℝ) + 1) / (P + 2) < 1 := by
        intro k hk
        have : (k : ℝ) < P + 1 := by exact_mod_cast hk
        exact ⟨by positivity, by rw [div_lt_one (by positivity)]; linarith⟩
      refine WellPosed.gradient_unisolvent P (P + 1) (by omega) (fun k => ((k : ℝ) + 1) / (P + 2)) ?_ _ ?_ ?_
      · intro i j hij _
        have : (i : ℝ) < j := by exact_mod_cast hij
        have : (0 : ℝ) < P + 2 := by positivity
        gcongr
      · intro i hi j hj
        have := (h a ha (((i : ℝ) + 1) / (P + 2), ((j : ℝ) + 1) / (P + 2)) (x01 i hi).1 (x01 i hi).2 (x01 j hj).1 (x01 j hj).2).2
        unfold discreteDx at this
        rcases mul_eq_zero.1 this with h0 | h0
        · simp at h0
        · simpa using h0
      · intro i hi j hj
        have := (h a ha (((i : ℝ) + 1) / (P + 2), ((j : ℝ) + 1) / (P + 2)) (x01 i hi).1 (x01 i hi).2 (x01 j hj).1 (x01 j hj).2).1
        unfold discreteDy at this
        rcases mul_eq_zero.1 this with h0 | h0
        · simp at h0
        · simpa using h0
    have value : ∀ a, IsNode nP M a → ∀ s, discreteFunction (ofReal ℝ T0) f (nP * 4 ^ M) P 0 (t.id a) (1 / 2 ^ M) s =
        2 ^ M * localCoeff (ofReal ℝ T0) f (nP * 4 ^ M) P 0 (t.id a) 0 := by
      intro a ha s
      unfold discreteFunction
      rw [sum_congr rfl fun i hi => by rw [coef a ha i (mem_range.1 hi)], ← mul_sum]
      have := WellPosed.shape_sum_one P s
      simp only [Algebra.algebraMap_self, RingHom.id_apply, this, mul_one, one_div_one_div]
    have conn := WellPosed.connected corner nP M ho hconn (fun a => 2 ^ M * localCoeff (ofReal ℝ T0) f (nP * 4 ^ M) P 0 (t.id a) 0) (by
      intro a b i k ha hb hf
      have := C64_continuous (R := ℝ) near corner junk junkM solve hs P M nP rep hnP hP0 (by omega) hrep hrP hc ho t ht T0 hT0 f a b ha hb i k hf 0
      rwa [value a ha, value b hb] at this)
    have ha0 : IsNode nP M (0, List.replicate M 0) := ⟨hnP, by simp, fun x hx => by rw [List.eq_of_mem_replicate hx]; norm_num⟩
    exact ⟨2 ^ M * localCoeff (ofReal ℝ T0) f (nP * 4 ^ M) P 0 (t.id (0, List.replicate M 0)) 0, fun a ha s _ _ _ _ => by rw [value a ha, conn a _ ha ha0]⟩
  · rintro ⟨κ, hκ⟩ a ha s _ _ _ _
    have cc := WellPosed.const_coeff (ofReal ℝ T0) f (nP * 4 ^ M) P (t.id a) (1 / 2 ^ M) κ hh (fun s h1 h2 h3 h4 => hκ a ha s h1.le h2 h3.le h4)
    constructor
    · unfold discreteDy
      rw [sum_congr rfl fun i hi => by rw [cc i (mem_range.1 hi)], ← mul_sum]
      simp only [Algebra.algebraMap_self, RingHom.id_apply, WellPosed.shapeDy_sum_zero, mul_zero]
    · unfold discreteDx
      rw [sum_congr rfl fun i hi => by rw [cc i (mem_range.1 hi)], ← mul_sum]
      simp only [Algebra.algebraMap_self, RingHom.id_apply, WellPosed.shapeDx_sum_zero, mul_zero]

/-! ### the hypotheses can be met -/

/-- Degree 1 on the cube with 24 elements: all three spaces exist, and every (complex) continuous function has a curl in the divergence
conforming space. -/
example (junk : Nat → ℝ) (junkM : Nat → Nat → ℝ) (f : EMat ℂ) : ∃ (t : Mesh.Tree ℝ) (T0 T1 T2 : EMat ℝ),
    initElementTree (fun a b : Nat => a == b) cubeCorner 6 1 = some t ∧ transformationCont junk junkM solver t 1 1 6 1 = some T0 ∧
    transformationDiv junk junkM solver t 1 1 6 1 = some T1 ∧ transformationDisc junk junkM solver t 0 1 6 1 = some T2 ∧
    ∃ g h : EMat ℂ, g.rows = T1.cols ∧ h.rows = T2.cols ∧
      discreteFunction (ofReal ℂ T1) g 24 1 0 (t.id (3, [2])) (1 / 2) (0, 0) = discreteDy (ofReal ℂ T0) f 24 1 0 (t.id (3, [2])) (1 / 2) (0, 0) ∧
      discreteFunction (ofReal ℂ T2) h 24 0 0 (t.id (3, [2])) (1 / 2) (0, 0) = 0 := by
  obtain ⟨t, ht, -⟩ := tree_facts (K := ℝ) (fun a b : Nat => a == b) cubeCorner 6 1 (by norm_num)
  obtain ⟨T0, hT0⟩ := Refinement.cube_cont junk junkM 1 1 1 (by norm_num) (by norm_num) (by norm_num) (by norm_num) t ht (by decide +kernel)
  obtain ⟨T1, hT1, -⟩ := C64_divergence (R := ℝ) _ _ junk junkM solver solver_solves 1 1 6 1 (by norm_num) (by norm_num) (by norm_num) (by norm_num) (by norm_num)
    cube_conforming cube_oriented t ht
  obtain ⟨-, T2, -, hT2, -⟩ := C64_discontinuous _ _ junk junkM solver solver_solves 0 1 6 1 (by norm_num) (by norm_num) (by norm_num) t ht
  obtain ⟨g, g1, -, g3⟩ := C86_curl (R := ℂ) _ _ junk junkM solver solver_solves 1 1 6 1 (by norm_num) (by norm_num) (by norm_num) (by norm_num) (by norm_num)
    cube_conforming cube_oriented t ht T0 T1 hT0 hT1 f
  obtain ⟨h, h1, -, h3⟩ := C86_divergence (R := ℂ) _ _ junk junkM solver solver_solves 1 1 6 1 (by norm_num) (by norm_num) (by norm_num) (by norm_num) (by norm_num)
    cube_conforming t ht T1 T2 hT1 hT2 g
  have ha : IsNode 6 1 (3, [2]) := ⟨by norm_num, rfl, by decide⟩
  have v := g3 _ ha (0, 0) le_rfl (by norm_num) le_rfl (by norm_num)
  have w := h3 _ ha (0, 0) le_rfl (by norm_num) le_rfl (by norm_num)
  norm_num at v w
  refine ⟨t, T0, T1, T2, ht, hT0, hT1, hT2, g, h, g1, h1, by norm_num; exact v.1, by norm_num; exact w.trans v.2.2⟩

end Bembel.Props
