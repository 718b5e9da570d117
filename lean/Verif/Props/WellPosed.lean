import Verif.Props.SpaceExact
import Verif.Props.LocalOperator
import Verif.Props.Interpolation
import Verif.Props.Quadrature
import Verif.Props.L2Error
import Mathlib.LinearAlgebra.Matrix.ToLin
import Mathlib.LinearAlgebra.FiniteDimensional.Basic
/-!
# C83: the ansatz functions are linearly independent, the mass matrix is positive definite
-/

set_option linter.unusedSectionVars false

open Finset

namespace Bembel.Props
namespace WellPosed
open Spec Spl Mesh Projector Glue Ansatz Refine Refinement SpaceExact

variable {V : Type} (near : V → V → Bool) (corner : Nat → Nat → V)
variable {R : Type} [Field R] [Algebra ℝ R]

/-- The coefficients of a spline on a patch are determined by its values inside the elements. -/
theorem patch_independent (qx qy n r : Nat) (hqx : 1 ≤ qx) (hqy : 1 ≤ qy) (hr : 1 ≤ r) (hrx : r ≤ qx) (hry : r ≤ qy) (hn : 0 < n) (g : Nat → R)
    (h : ∀ X < n, ∀ Y < n, ∀ s : ℝ × ℝ, 0 < s.1 → s.1 < 1 → 0 < s.2 → s.2 < 1 →
      patchValue qx qy n r X Y g (((X : ℝ) + s.1) / n, ((Y : ℝ) + s.2) / n) = 0) :
    ∀ c < splineDim qx n r * splineDim qy n r, g c = 0 := by
  have main : ∀ j < splineDim qy n r, ∀ i < splineDim qx n r, g (j * splineDim qx n r + i) = 0 := by
    intro j hj i hi
    have step : ∀ X < n, ∀ s1 : ℝ, 0 < s1 → s1 < 1 → ∀ j < splineDim qy n r,
        ∑ i ∈ range (splineDim qx n r), piece qx n r X (((X : ℝ) + s1) / n) i • g (j * splineDim qx n r + i) = 0 := by
      intro X hX s1 a1 a2
      refine piece_independent qy n r hqy hr hry hn (fun j => ∑ i ∈ range (splineDim qx n r), piece qx n r X (((X : ℝ) + s1) / n) i • g (j * splineDim qx n r + i)) ?_
      intro Y hY s2 b1 b2
      rw [← h X hX Y hY (s1, s2) a1 a2 b1 b2]
      unfold patchValue
      refine sum_congr rfl fun j _ => ?_
      rw [smul_sum]
      exact sum_congr rfl fun i _ => by rw [smul_smul, mul_comm]
    exact piece_independent qx n r hqx hr hrx hn (fun i => g (j * splineDim qx n r + i)) (fun X hX s1 a1 a2 => step X hX s1 a1 a2 j hj) i hi
  intro c hc
  have hd : 0 < splineDim qx n r := dim_pos _ _ _ hqx
  have := main (c / splineDim qx n r) (by rw [Nat.div_lt_iff_lt_mul hd, Nat.mul_comm]; exact hc) (c % splineDim qx n r) (Nat.mod_lt _ hd)
  rwa [Nat.div_add_mod'] at this

/-- Coefficients of the patches, from values on the elements. -/
theorem element_independent (P qx qy r M : Nat) (hP : P ≤ 4) (hqx : 1 ≤ qx) (hqy : 1 ≤ qy) (hx : qx = P + 1 ∨ qx = P) (hy : qy = P + 1 ∨ qy = P)
    (hr : 1 ≤ r) (hrx : r ≤ qx) (hry : r ≤ qy) (nP p : Nat) (hp : p < nP) (γ : Nat → R)
    (h : ∀ a, IsNode nP M a → a.1 = p → ∀ s : ℝ × ℝ, 0 < s.1 → s.1 < 1 → 0 < s.2 → s.2 < 1 →
      (1 / (1 / 2 ^ M) : ℝ) • elementValue P qx qy (2 ^ M) r (posX a.2) (posY a.2) γ s = 0) :
    ∀ c < splineDim qx (2 ^ M) r * splineDim qy (2 ^ M) r, γ c = 0 := by
  refine patch_independent qx qy (2 ^ M) r hqx hqy hr hrx hry (by positivity) γ ?_
  intro X hX Y hY s h1 h2 h3 h4
  obtain ⟨l, l1, l2, l3, l4⟩ := exists_path M X Y hX hY
  have := h (p, l) ⟨hp, l1, l2⟩ rfl s h1 h2 h3 h4
  rw [one_div_one_div] at this
  have e := (smul_eq_zero_iff_right (by positivity : (2 ^ M : ℝ) ≠ 0)).1 this
  rw [l3, l4, elementValue_piece P qx qy _ r X Y hP hqx hqy hx hy hr hX hY] at e
  exact e

/-- A dof of the glued space is the dof of some patch. -/
theorem glued (A G T : EMat ℝ) (hT : A.mul G = some T) (trips : List (Nat × Nat × Int)) (col : Nat → Nat) (val : Nat → Int)
    (hG : OnePerRow G A.cols trips col val) (Same : Nat → Nat → Prop) (hM : GlueMatrix A.cols G.cols trips Same) (c : Nat) (hc : c < T.cols) :
    ∃ d < A.cols, col d = c ∧ (d, col d, val d) ∈ trips := by
  have hcols : T.cols = G.cols := by
    unfold EMat.mul at hT
    split_ifs at hT
    rw [← Option.some.inj hT]
  obtain ⟨t, h1, h2⟩ := hM.onto c (by omega)
  have hd : t.1 < A.cols := List.mem_range.1 (hM.rows.subset (List.mem_map.2 ⟨t, h1, rfl⟩))
  exact ⟨t.1, hd, by rw [← h2]; exact (hM.same _ (hG.mem _ hd) _ h1).2 (Or.inl rfl), hG.mem _ hd⟩

end WellPosed

open Spec Spl Mesh Projector Glue Ansatz Refine Refinement SpaceExact WellPosed

variable {V : Type} (near : V → V → Bool) (corner : Nat → Nat → V)
variable {R : Type} [Field R] [Algebra ℝ R]

/-- C83 (discontinuous spaces): the ansatz functions are linearly independent: a vector of dofs whose function vanishes inside all elements is zero. -/
theorem C83_discontinuous (junk : Nat → ℝ) (junkM : Nat → Nat → ℝ) (solve) (hs : SolvesSystems solve)
    (P M nP rep : Nat) (hnP : 0 < nP) (hP : P ≤ 4) (hrep : 1 ≤ rep)
    (t : Mesh.Tree ℝ) (ht : initElementTree near corner nP M = some t) (T : EMat ℝ) (hT : transformationDisc junk junkM solve t P M nP rep = some T)
    (f : EMat R) (h0 : ∀ a, IsNode nP M a → ∀ s : ℝ × ℝ, 0 < s.1 → s.1 < 1 → 0 < s.2 → s.2 < 1 →
      discreteFunction (ofReal R T) f (nP * 4 ^ M) P 0 (t.id a) (1 / 2 ^ M) s = 0) : ∀ c < T.cols, f.at' c 0 = 0 := by
  set r := min rep (P + 1) with hr
  set D := splineDim (P + 1) (2 ^ M) r * splineDim (P + 1) (2 ^ M) r with hD
  obtain ⟨A, T1, c1, c2, c3, c4, c5⟩ := C64_discontinuous near corner junk junkM solve hs P M nP rep hnP (by omega) hrep t ht
  obtain rfl : T1 = T := Option.some.inj (c2.symm.trans hT)
  obtain ⟨A', h1, h2, h3, h4⟩ := disc_matrix near corner junk junkM solve hs P M nP rep hnP (by omega) hrep t ht
  obtain rfl : A' = A := Option.some.inj (h1.symm.trans c1)
  have hcols : T1.cols = nP * D := by rw [c4, h3]; rfl
  intro c hc
  have hD0 : 0 < D := Nat.mul_pos (dim_pos _ _ _ (by omega)) (dim_pos _ _ _ (by omega))
  have hp : c / D < nP := (Nat.div_lt_iff_lt_mul hD0).2 (by omega)
  have := element_independent P (P + 1) (P + 1) r M hP (by omega) (by omega) (Or.inl rfl) (Or.inl rfl) (by omega) (by omega) (by omega) nP (c / D) hp
    (fun k => f.at' (c / D * D + k) 0) (by
      intro a ha hap s s1 s2 s3 s4
      obtain ⟨p1, -, -, -⟩ := place near corner nP M hnP t ht a ha
      rw [← h0 a ha s s1 s2 s3 s4, disc_value near corner _ _ _ hs P M nP rep hnP (by omega) hrep t ht T1 hT a ha p1, hap]) (c % D) (Nat.mod_lt _ hD0)
  simp only [Nat.div_add_mod'] at this
  exact this

/-- C83 (continuous spaces): the ansatz functions are linearly independent. -/
theorem C83_continuous (junk : Nat → ℝ) (junkM : Nat → Nat → ℝ) (solve) (hs : SolvesSystems solve)
    (P M nP rep : Nat) (hnP : 0 < nP) (hP0 : 0 < P) (hP : P ≤ 4) (hrep : 1 ≤ rep) (hrP : rep ≤ P)
    (hc : ConformingPatches near corner nP) (ho : OrientedPatches corner nP)
    (t : Mesh.Tree ℝ) (ht : initElementTree near corner nP M = some t) (T : EMat ℝ) (hT : transformationCont junk junkM solve t P M nP rep = some T)
    (f : EMat R) (h0 : ∀ a, IsNode nP M a → ∀ s : ℝ × ℝ, 0 < s.1 → s.1 < 1 → 0 < s.2 → s.2 < 1 →
      discreteFunction (ofReal R T) f (nP * 4 ^ M) P 0 (t.id a) (1 / 2 ^ M) s = 0) : ∀ c < T.cols, f.at' c 0 = 0 := by
  set n := splineDim (P + 1) (2 ^ M) rep with hn
  obtain ⟨A, G, trips, col, val, c1, c2, c3, c4, c5, c6, c7⟩ := cont_facts near corner junk junkM solve hs P M nP rep hnP hP0 (by omega) hrep hrP hc ho t ht T hT
  rw [← hn] at c3 c5 c7
  have n0 : 0 < n := dim_pos _ _ _ (by omega)
  set γ : Nat → R := fun k => (val k : ℝ) • f.at' (col k) 0 with hγ
  intro c hcT
  obtain ⟨d, hd, rfl, -⟩ := glued A G T c2 trips col val c4 _ c5 c hcT
  have hD0 : 0 < n * n := Nat.mul_pos n0 n0
  have hp : d / (n * n) < nP := (Nat.div_lt_iff_lt_mul hD0).2 (by omega)
  have := element_independent P (P + 1) (P + 1) rep M hP (by omega) (by omega) (Or.inl rfl) (Or.inl rfl) (by omega) (by omega) (by omega) nP (d / (n * n)) hp
    (fun k => γ (d / (n * n) * (n * n) + k)) (by
      intro a ha hap s s1 s2 s3 s4
      obtain ⟨p1, -, -, -⟩ := place near corner nP M hnP t ht a ha
      rw [← h0 a ha s s1 s2 s3 s4, discreteFunction_mul A G T f c2 trips col val c4,
        discreteFunction_element A P M nP (P + 1) (P + 1) rep 0 0 0 t a p1 ha.1 (by simp) (by rw [c3, hn]; omega)
          (by intro pa _ c i hi hc; rw [Nat.zero_add, Nat.zero_add]; exact c7 a ha pa c i hi hc) (by intro i _ c hc h; rw [c3, hn] at hc; omega) γ, hap]
      simp only [Nat.zero_add]
      rw [hn]) (d % (n * n)) (Nat.mod_lt _ hD0)
  simp only [Nat.div_add_mod', hγ, c6 d hd, Int.cast_one, one_smul] at this
  exact this

/-- C83 (divergence conforming spaces): the ansatz functions are linearly independent. -/
theorem C83_divergence (junk : Nat → ℝ) (junkM : Nat → Nat → ℝ) (solve) (hs : SolvesSystems solve)
    (P M nP rep : Nat) (hnP : 0 < nP) (hP0 : 0 < P) (hP : P ≤ 4) (hrep : 1 ≤ rep) (hrP : rep ≤ P)
    (hc : ConformingPatches near corner nP)
    (t : Mesh.Tree ℝ) (ht : initElementTree near corner nP M = some t) (T : EMat ℝ) (hT : transformationDiv junk junkM solve t P M nP rep = some T)
    (f : EMat R) (h0 : ∀ a, IsNode nP M a → ∀ s : ℝ × ℝ, 0 < s.1 → s.1 < 1 → 0 < s.2 → s.2 < 1 → ∀ d < 2,
      discreteFunction (ofReal R T) f (nP * 4 ^ M) P d (t.id a) (1 / 2 ^ M) s = 0) : ∀ c < T.cols, f.at' c 0 = 0 := by
  obtain ⟨A, G, T1, trips, col, val, c1, c2, c3, -, c4, c5, c6, c7, c8⟩ := div_facts near corner junk junkM solve hs P M nP rep hnP hP0 (by omega) hrep hrP hc t ht
  obtain rfl : T1 = T := Option.some.inj (c2.symm.trans hT)
  set D := splineDim (P + 1) (2 ^ M) rep * splineDim P (2 ^ M) rep with hD
  have hD0 : 0 < D := Nat.mul_pos (dim_pos _ _ _ (by omega)) (dim_pos _ _ _ (by omega))
  have hAD : A.cols = 2 * (nP * D) := by
    rw [c4, hD]; unfold splineDim; ring
  set γ : Nat → R := fun k => (val k : ℝ) • f.at' (col k) 0 with hγ
  have comp : ∀ i : Nat, normalComponent i < 2 := fun i => by unfold normalComponent; split_ifs <;> omega
  have side : ∀ i : Nat, ∀ p < nP, ∀ k < D, γ ((if i = 1 ∨ i = 3 then 0 else nP * D) + (p * D + k)) = 0 := by
    intro i p hp k hk
    have qx1 : 1 ≤ (if i = 1 ∨ i = 3 then P + 1 else P) := by split_ifs <;> omega
    have qy1 : 1 ≤ (if i = 1 ∨ i = 3 then P else P + 1) := by split_ifs <;> omega
    have := element_independent P (if i = 1 ∨ i = 3 then P + 1 else P) (if i = 1 ∨ i = 3 then P else P + 1) rep M hP qx1 qy1
      (by split_ifs <;> simp) (by split_ifs <;> simp) hrep (by split_ifs <;> omega) (by split_ifs <;> omega) nP p hp
      (fun k => γ ((if i = 1 ∨ i = 3 then 0 else nP * D) + (p * D + k))) (by
        intro a ha hap s s1 s2 s3 s4
        rw [← h0 a ha s s1 s2 s3 s4 _ (comp i), discreteFunction_mul A G T1 f c3 trips col val c5,
          normal_value near corner junk junkM solve hs P M nP rep hnP hP0 (by omega) hrep hrP t ht A c1 a ha γ s i, hap]) k (by
        rw [show splineDim (if i = 1 ∨ i = 3 then P + 1 else P) (2 ^ M) rep * splineDim (if i = 1 ∨ i = 3 then P else P + 1) (2 ^ M) rep = D by
          split_ifs
          · rfl
          · rw [hD, Nat.mul_comm]]
        exact hk)
    exact this
  intro c hcT
  obtain ⟨d, hd, rfl, hm⟩ := glued A G T1 c3 trips col val c5 _ c6 c hcT
  have zero : γ d = 0 := by
    by_cases h : d < nP * D
    · have := side 1 (d / D) ((Nat.div_lt_iff_lt_mul hD0).2 h) (d % D) (Nat.mod_lt _ hD0)
      rwa [if_pos (by omega), Nat.div_add_mod', Nat.zero_add] at this
    · have := side 0 ((d - nP * D) / D) ((Nat.div_lt_iff_lt_mul hD0).2 (by omega)) ((d - nP * D) % D) (Nat.mod_lt _ hD0)
      rwa [if_neg (by omega), Nat.div_add_mod', Nat.add_sub_cancel' (by omega)] at this
  have hv : (val d : ℝ) ≠ 0 := by
    rcases c8 _ hm with h | h <;> simp only at h <;> rw [h] <;> norm_num
  exact (smul_eq_zero_iff_right hv).1 zero


namespace WellPosed
open LocalOperator FunctionEval SuperSpace

/-- A function of degree `P` on an element that vanishes at a tensor grid of more than `P` different nodes per direction vanishes. -/
theorem grid_unisolvent (P n : Nat) (hn : P < n) (x : Nat → ℝ) (hx : ∀ i j, i < j → j < n → x i < x j) (c : Nat → ℝ)
    (h : ∀ a < n, ∀ b < n, ∑ i ∈ range ((P + 1) * (P + 1)), c i * shape P i (x a, x b) = 0) : ∀ i < (P + 1) * (P + 1), c i = 0 := by
  have inj : ∀ k ≤ P, ∀ l ≤ P, x k = x l → k = l := by
    intro k hk l hl e
    rcases Nat.lt_trichotomy k l with h | h | h
    · exact absurd e (hx k l h (by omega)).ne
    · exact h
    · exact absurd e (hx l k h (by omega)).ne'
  have split : ∀ a b, ∑ i ∈ range ((P + 1) * (P + 1)), c i * shape P i (x a, x b) =
      ∑ j ∈ range (P + 1), bern P j (x b) * ∑ i ∈ range (P + 1), bern P i (x a) * c (j * (P + 1) + i) := by
    intro a b
    rw [H2.sum_range_mul]
    refine sum_congr rfl fun j _ => ?_
    rw [mul_sum]
    refine sum_congr rfl fun i hi => ?_
    have hi := mem_range.1 hi
    unfold shape
    rw [show (j * (P + 1) + i) % (P + 1) = i by rw [Nat.mul_comm, Nat.mul_add_mod, Nat.mod_eq_of_lt hi],
      show (j * (P + 1) + i) / (P + 1) = j by rw [Nat.mul_comm, Nat.mul_add_div (by omega), Nat.div_eq_of_lt hi, Nat.add_zero]]
    ring
  have inner : ∀ j ≤ P, ∀ i ≤ P, c (j * (P + 1) + i) = 0 := by
    intro j hj
    refine Interp.unisolvent P (fun i => c (j * (P + 1) + i)) x inj fun a ha => ?_
    exact Interp.unisolvent P (fun j => ∑ i ∈ range (P + 1), bern P i (x a) * c (j * (P + 1) + i)) x inj
      (fun b hb => by rw [← split, h a (by omega) b (by omega)]) j hj
  intro i hi
  have := inner (i / (P + 1)) (by have := (Nat.div_lt_iff_lt_mul (by omega : 0 < P + 1)).2 hi; omega) (i % (P + 1)) (by have := Nat.mod_lt i (by omega : 0 < P + 1); omega)
  rwa [Nat.div_add_mod'] at this

/-- A quadratic matrix with trivial kernel: every system has exactly one solution. -/
theorem solvable (n : Nat) (A : Nat → Nat → ℝ) (h : ∀ x : Nat → ℝ, (∀ c < n, ∑ d ∈ range n, A c d * x d = 0) → ∀ c < n, x c = 0) (v : Nat → ℝ) :
    ∃ x : Nat → ℝ, (∀ c < n, ∑ d ∈ range n, A c d * x d = v c) ∧
      ∀ y : Nat → ℝ, (∀ c < n, ∑ d ∈ range n, A c d * y d = v c) → ∀ c < n, y c = x c := by
  let B : Matrix (Fin n) (Fin n) ℝ := fun i j => A i j
  have conv : ∀ (x : Nat → ℝ) (c : Fin n), (B.mulVec fun i => x i) c = ∑ d ∈ range n, A c d * x d := by
    intro x c
    rw [Finset.sum_range]
    rfl
  have inj : Function.Injective B.mulVecLin := by
    rw [← LinearMap.ker_eq_bot, LinearMap.ker_eq_bot']
    intro m hm
    have e : ∀ i : Fin n, (fun k => if h : k < n then m ⟨k, h⟩ else 0) (i : Nat) = m i := by intro i; simp
    funext i
    have := h (fun k => if h : k < n then m ⟨k, h⟩ else 0) (by
      intro c hc
      rw [← conv _ ⟨c, hc⟩]
      simp only [e]
      exact congrFun hm ⟨c, hc⟩) i i.2
    simpa using this
  obtain ⟨m, hm⟩ := (LinearMap.injective_iff_surjective.1 inj) fun i => v i
  have hx : ∀ c < n, ∑ d ∈ range n, A c d * (fun k => if h : k < n then m ⟨k, h⟩ else 0) d = v c := by
    intro c hc
    rw [← conv _ ⟨c, hc⟩]
    have e : ∀ i : Fin n, (fun k => if h : k < n then m ⟨k, h⟩ else 0) (i : Nat) = m i := by intro i; simp
    simp only [e]
    exact congrFun hm ⟨c, hc⟩
  refine ⟨_, hx, ?_⟩
  intro y hy c hc
  refine sub_eq_zero.1 (h (fun k => y k - (fun k => if h : k < n then m ⟨k, h⟩ else 0) k) ?_ c hc)
  intro c hc
  simp only [mul_sub, sum_sub_distrib]
  rw [hy c hc, hx c hc, sub_self]

/-- The mass matrix of a scalar space with linearly independent ansatz functions. -/
theorem mass {V : Type} (near : V → V → Bool) (corner : Nat → Nat → V) (np M : Nat) (hP : 0 < np)
    (space : FunctionEval.Space ℝ) (ht : initElementTree near corner np M = some space.t)
    (hT : space.trans.rows = 1 * ((space.P + 1) * (space.P + 1) * space.t.nElements)) (hreg : Spec.RegularPatches np space.geo)
    (hind : ∀ f : EMat ℝ, (∀ a, IsNode np M a → ∀ s : ℝ × ℝ, 0 < s.1 → s.1 < 1 → 0 < s.2 → s.2 < 1 →
      discreteFunction space.trans f (np * 4 ^ M) space.P 0 (space.t.id a) (1 / 2 ^ M) s = 0) → ∀ c < space.trans.cols, f.at' c 0 = 0)
    (es : EigenSolver) (deg : Nat) (hd : space.P ≤ deg) (hd1 : deg ≤ 19) (junk junk' : Nat → ℝ) :
    ∃ els A, elements space.t = some els ∧ LocalOperator.compute junk identity space (gaussSquare es 50 deg) = some A ∧
      A.rows = space.trans.cols ∧ A.cols = space.trans.cols ∧
      (∀ c < space.trans.cols, ∀ d < space.trans.cols, A.at' c d = A.at' d c) ∧
      (∀ f : Nat → ℝ, (∃ c < space.trans.cols, f c ≠ 0) →
        0 < ∑ c ∈ range space.trans.cols, f c * ∑ d ∈ range space.trans.cols, A.at' c d * f d) ∧
      ∀ g : V3 → ℝ, ∃ v, LinearForm.compute junk' (LinearForm.dirichlet g) space (gaussSquare es 50 deg) = some v ∧
        ∃ x : Nat → ℝ, (∀ c < space.trans.cols, ∑ d ∈ range space.trans.cols, A.at' c d * x d = v.at' c 0) ∧
          (∀ y : Nat → ℝ, (∀ c < space.trans.cols, ∑ d ∈ range space.trans.cols, A.at' c d * y d = v.at' c 0) →
            ∀ c < space.trans.cols, y c = x c) ∧
          ∀ f : EMat ℝ, (∀ a ∈ els, ∀ s : ℝ × ℝ, 0 < s.1 → s.1 < 1 → 0 < s.2 → s.2 < 1 → g (elementPoint space.t space.geo a s).f =
              discreteFunction space.trans f space.t.nElements space.P 0 (space.t.id a) (getH space.t a) s) →
            ∀ c < space.trans.cols, x c = f.at' c 0 := by
  have hsel : gaussSquare es 50 deg = tensorRule (gaussLegendreRule es (deg + 1)) := (C46_select _ 50 deg (by omega)).2
  obtain ⟨q1, q2, q3, -⟩ := C47_tables es (deg + 1) (by omega) (by omega)
  set q := gaussLegendreRule es (deg + 1) with hq
  rw [hsel]
  have hw : ∀ j < (tensorRule q).size, 0 < (tensorRule q).w j := by
    intro j hj
    have hj : j < q.size * q.size := hj
    rw [q1] at hj
    have e : (tensorRule q).w j = q.w (j / (deg + 1)) * q.w (j % (deg + 1)) := by simp only [tensorRule, q1]
    rw [e]
    exact mul_pos (q2 _ ((Nat.div_lt_iff_lt_mul (by omega)).2 hj)).2.2 (q2 _ (Nat.mod_lt _ (by omega))).2.2
  have hsq : ∀ j < (tensorRule q).size, Spec.ClosedSquare ((tensorRule q).xi j) :=
    tensorRule_closed _ fun i hi => ⟨(q2 i (q1 ▸ hi)).1.le, (q2 i (q1 ▸ hi)).2.1.le⟩
  obtain ⟨els, A, h1, h2, h3, h4, h5, h6⟩ := C62_consistent near corner np M hP space ht hT junk junk' (tensorRule q)
  obtain ⟨els', A', h1', h2', h3', h4', -⟩ := C62_mass near corner np M hP space ht hT junk (tensorRule q)
  obtain rfl : els' = els := Option.some.inj (h1'.symm.trans h1)
  obtain rfl : A' = A := Option.some.inj (h2'.symm.trans h2)
  obtain ⟨t', k1, k2, k3, k4, k5, k6, k7⟩ := tree_facts (K := ℝ) near corner np M hP
  obtain rfl : space.t = t' := Option.some.inj (ht.symm.trans k1)
  have hels : els' = leaves np M := by
    rw [elements_eq space.t np M hP k3 k6] at h1
    exact (Option.some.inj h1).symm
  have hh : ∀ a ∈ els', getH space.t a = 1 / 2 ^ M := by
    intro a ha
    rw [hels] at ha
    have := (k2 M le_rfl a ha).2.1
    unfold getH
    rw [this, (mem_leaves.1 ha).2.1]
  have pos : ∀ f : Nat → ℝ, (∃ c < space.trans.cols, f c ≠ 0) →
        0 < ∑ c ∈ range space.trans.cols, f c * ∑ d ∈ range space.trans.cols, A'.at' c d * f d := by
    intro f hf
    refine lt_of_le_of_ne (h5 (fun j hj => (hw j hj).le) ⟨space.trans.cols, 1, fun k _ => f k⟩) ?_
    intro h0
    have h0 := (h4 ⟨space.trans.cols, 1, fun k _ => f k⟩).symm.trans h0.symm
    obtain ⟨c, hc, hcf⟩ := hf
    refine hcf (hind ⟨space.trans.cols, 1, fun k _ => f k⟩ ?_ c hc)
    intro a ha s _ _ _ _
    have hal : a ∈ els' := by rw [hels]; exact mem_leaves.2 ha
    have term : ∀ a, ∀ j < (tensorRule q).size, 0 ≤ algebraMap ℝ ℝ (getH space.t a ^ 2 * (tensorRule q).w j) * (‖cross3 (elementPoint space.t space.geo a ((tensorRule q).xi j)).dx
        (elementPoint space.t space.geo a ((tensorRule q).xi j)).dy‖ *
        discreteFunction space.trans ⟨space.trans.cols, 1, fun k _ => f k⟩ space.t.nElements space.P 0 (space.t.id a) (getH space.t a) (elementPoint space.t space.geo a ((tensorRule q).xi j)).xi ^ 2) := by
      intro a j hj
      have := hw j hj
      simp only [Algebra.algebraMap_self, RingHom.id_apply]
      positivity
    unfold surfaceQuad at h0
    have hz := fun x => List.all_zero_of_le_zero_le_of_sum_eq_zero (x := x) (by
      intro x hx
      obtain ⟨b, _, rfl⟩ := List.mem_map.1 hx
      exact sum_nonneg fun j hj => term b j (mem_range.1 hj)) h0
    have hz := hz _ (List.mem_map.2 ⟨a, hal, rfl⟩)
    rw [sum_eq_zero_iff_of_nonneg fun j hj => term a j (mem_range.1 hj)] at hz
    have hgrid : ∀ i < deg + 1, ∀ j < deg + 1,
        ∑ k ∈ range ((space.P + 1) * (space.P + 1)), localCoeff space.trans ⟨space.trans.cols, 1, fun k _ => f k⟩ space.t.nElements space.P 0 (space.t.id a) k *
          shape space.P k (q.xi i, q.xi j) = 0 := by
      intro i hi j hj
      have hlt : i * (deg + 1) + j < (tensorRule q).size := by
        show _ < q.size * q.size
        rw [q1]
        calc i * (deg + 1) + j < i * (deg + 1) + (deg + 1) := by omega
          _ = (i + 1) * (deg + 1) := by ring
          _ ≤ _ := Nat.mul_le_mul_right _ hi
      have e : (tensorRule q).xi (i * (deg + 1) + j) = (q.xi i, q.xi j) := by
        simp only [tensorRule, q1]
        rw [show (i * (deg + 1) + j) / (deg + 1) = i by rw [Nat.mul_comm, Nat.mul_add_div (by omega), Nat.div_eq_of_lt hj, Nat.add_zero],
          show (i * (deg + 1) + j) % (deg + 1) = j by rw [Nat.mul_comm, Nat.mul_add_mod, Nat.mod_eq_of_lt hj]]
      have := hz _ (mem_range.2 hlt)
      have c1 : (getH space.t a ^ 2 * (tensorRule q).w (i * (deg + 1) + j)) ≠ 0 := by
        have := (hw _ hlt).ne'
        have : getH space.t a ≠ 0 := by unfold getH; positivity
        positivity
      have c2 : ‖cross3 (elementPoint space.t space.geo a ((tensorRule q).xi (i * (deg + 1) + j))).dx (elementPoint space.t space.geo a ((tensorRule q).xi (i * (deg + 1) + j))).dy‖ ≠ 0 :=
        norm_ne_zero_iff.2 (node_regular near corner np M hP space.t ht space.geo hreg M le_rfl a ha _ (hsq _ hlt) 1)
      simp only [Algebra.algebraMap_self, RingHom.id_apply, mul_eq_zero, c1, c2, false_or, pow_eq_zero_iff, ne_eq, OfNat.ofNat_ne_zero,
        not_false_eq_true] at this
      have e2 : (elementPoint space.t space.geo a ((tensorRule q).xi (i * (deg + 1) + j))).xi = (q.xi i, q.xi j) := e
      rw [e2] at this
      unfold discreteFunction at this
      simp only [Algebra.algebraMap_self, RingHom.id_apply] at this
      rcases mul_eq_zero.1 this with h | h
      · rw [hh a hal, one_div_one_div] at h
        exact absurd h (by positivity)
      · exact h
    have hc0 := grid_unisolvent space.P (deg + 1) (by omega) q.xi q3 _ hgrid
    unfold discreteFunction
    rw [← k3, sum_eq_zero, mul_zero]
    intro i hi
    rw [hc0 i (mem_range.1 hi), zero_mul]
  refine ⟨els', A', h1, h2, h3', h4', h3, pos, ?_⟩
  have ker : ∀ x : Nat → ℝ, (∀ c < space.trans.cols, ∑ d ∈ range space.trans.cols, A'.at' c d * x d = 0) → ∀ c < space.trans.cols, x c = 0 := by
    intro x hx c hc
    by_contra h
    have := pos x ⟨c, hc, h⟩
    rw [sum_eq_zero fun c hc => by rw [hx c (mem_range.1 hc), mul_zero]] at this
    exact lt_irrefl _ this
  intro g
  obtain ⟨-, v, -, v2, -⟩ := C61_dirichlet near corner np M hP space ht hT junk' (tensorRule q) g
  obtain ⟨x, x1, x2⟩ := solvable space.trans.cols A'.at' ker fun c => v.at' c 0
  refine ⟨v, v2, x, x1, x2, ?_⟩
  intro f hf c hc
  obtain ⟨v', v3, v4⟩ := h6 f g fun a ha j hj => by
    have hj : j < q.size * q.size := hj
    rw [q1] at hj
    have b1 := q2 _ ((Nat.div_lt_iff_lt_mul (by omega)).2 hj)
    have b2 := q2 _ (Nat.mod_lt j (by omega : 0 < deg + 1))
    exact hf a ha _ (by simp only [tensorRule, q1]; exact b1.1) (by simp only [tensorRule, q1]; exact b1.2.1)
      (by simp only [tensorRule, q1]; exact b2.1) (by simp only [tensorRule, q1]; exact b2.2.1)
  obtain rfl : v' = v := Option.some.inj (v3.symm.trans v2)
  exact (x2 (fun d => f.at' d 0) v4 c hc).symm

end WellPosed

/-- Rows of the transformation matrix. -/
theorem WellPosed.cont_rows (junk : Nat → ℝ) (junkM : Nat → Nat → ℝ) (solve) (hs : SolvesSystems solve)
    (P M nP rep : Nat) (hnP : 0 < nP) (hP0 : 0 < P) (hP : P ≤ 19) (hrep : 1 ≤ rep) (hrP : rep ≤ P)
    (hc : ConformingPatches near corner nP) (ho : OrientedPatches corner nP)
    (t : Mesh.Tree ℝ) (ht : initElementTree near corner nP M = some t) (T : EMat ℝ) (hT : transformationCont junk junkM solve t P M nP rep = some T) :
    T.rows = nP * 4 ^ M * ((P + 1) * (P + 1)) := by
  obtain ⟨A, G, trips, col, val, c1, c2, -⟩ := cont_facts near corner junk junkM solve hs P M nP rep hnP hP0 hP hrep hrP hc ho t ht T hT
  obtain ⟨A', h1, h2, -⟩ := disc_matrix near corner junk junkM solve hs P M nP rep hnP hP hrep t ht
  have hA : makeMatrixCont junk junkM solve t P M nP rep = some A' := by rw [makeMatrixCont, if_pos ⟨hP0, hrP⟩]; exact h1
  obtain rfl : A' = A := Option.some.inj (hA.symm.trans c1)
  rw [← h2]
  unfold EMat.mul at c2
  split_ifs at c2
  rw [← Option.some.inj c2]

theorem WellPosed.ofReal_self (T : EMat ℝ) : ofReal ℝ T = T := by
  unfold ofReal
  simp only [Algebra.algebraMap_self, RingHom.id_apply]

/-- C83 (mass matrix of discontinuous spaces): symmetric and positive definite; for all data the system of the L2 projection has exactly one solution, and it
reproduces the functions of the space.  `deg` is the quadrature degree; the library takes `P + 1` for the mass matrix and for the linear form. -/
theorem C83_mass_discontinuous (junkP : Nat → ℝ) (junkM : Nat → Nat → ℝ) (solve) (hs : SolvesSystems solve)
    (P M nP rep : Nat) (hnP : 0 < nP) (hP : P ≤ 4) (hrep : 1 ≤ rep)
    (t : Mesh.Tree ℝ) (ht : initElementTree near corner nP M = some t) (T : EMat ℝ) (hT : transformationDisc junkP junkM solve t P M nP rep = some T)
    (geo : Nat → ℝ × ℝ → V3 × V3 × V3) (hreg : Spec.RegularPatches nP geo)
    (es : EigenSolver) (deg : Nat) (hd : P ≤ deg) (hd1 : deg ≤ 19) (junk junk' : Nat → ℝ) :
    let space : FunctionEval.Space ℝ := ⟨t, P, geo, T⟩
    ∃ els A, elements space.t = some els ∧ LocalOperator.compute junk LocalOperator.identity space (gaussSquare es 50 deg) = some A ∧
      A.rows = T.cols ∧ A.cols = T.cols ∧ (∀ c < T.cols, ∀ d < T.cols, A.at' c d = A.at' d c) ∧
      (∀ f : Nat → ℝ, (∃ c < T.cols, f c ≠ 0) → 0 < ∑ c ∈ range T.cols, f c * ∑ d ∈ range T.cols, A.at' c d * f d) ∧
      ∀ g : V3 → ℝ, ∃ v, LinearForm.compute junk' (LinearForm.dirichlet g) space (gaussSquare es 50 deg) = some v ∧
        ∃ x : Nat → ℝ, (∀ c < T.cols, ∑ d ∈ range T.cols, A.at' c d * x d = v.at' c 0) ∧
          (∀ y : Nat → ℝ, (∀ c < T.cols, ∑ d ∈ range T.cols, A.at' c d * y d = v.at' c 0) → ∀ c < T.cols, y c = x c) ∧
          ∀ f : EMat ℝ, (∀ a ∈ els, ∀ s : ℝ × ℝ, 0 < s.1 → s.1 < 1 → 0 < s.2 → s.2 < 1 → g (elementPoint t geo a s).f = discreteFunction T f (nP * 4 ^ M) P 0 (t.id a) (getH t a) s) →
            ∀ c < T.cols, x c = f.at' c 0 := by
  intro space
  obtain ⟨A, T1, c1, c2, c3, c4, c5⟩ := C64_discontinuous near corner junkP junkM solve hs P M nP rep hnP (by omega) hrep t ht
  obtain rfl : T1 = T := Option.some.inj (c2.symm.trans hT)
  obtain ⟨A', h1, h2, -⟩ := disc_matrix near corner junkP junkM solve hs P M nP rep hnP (by omega) hrep t ht
  obtain rfl : A' = A := Option.some.inj (h1.symm.trans c1)
  obtain ⟨u, g1, -, g3, -⟩ := tree_facts (K := ℝ) near corner nP M hnP
  obtain rfl : u = t := Option.some.inj (g1.symm.trans ht)
  have := WellPosed.mass near corner nP M hnP space ht (by
      show T1.rows = 1 * ((P + 1) * (P + 1) * u.nElements)
      rw [c3, h2, g3]; ring) hreg (by
      intro f hf
      refine C83_discontinuous near corner junkP junkM solve hs P M nP rep hnP hP hrep u ht T1 hT f ?_
      rw [WellPosed.ofReal_self]; exact hf) es deg hd hd1 junk junk'
  rw [← g3]
  exact this

/-- C83 (mass matrix of continuous spaces). -/
theorem C83_mass_continuous (junkP : Nat → ℝ) (junkM : Nat → Nat → ℝ) (solve) (hs : SolvesSystems solve)
    (P M nP rep : Nat) (hnP : 0 < nP) (hP0 : 0 < P) (hP : P ≤ 4) (hrep : 1 ≤ rep) (hrP : rep ≤ P)
    (hc : ConformingPatches near corner nP) (ho : OrientedPatches corner nP)
    (t : Mesh.Tree ℝ) (ht : initElementTree near corner nP M = some t) (T : EMat ℝ) (hT : transformationCont junkP junkM solve t P M nP rep = some T)
    (geo : Nat → ℝ × ℝ → V3 × V3 × V3) (hreg : Spec.RegularPatches nP geo)
    (es : EigenSolver) (deg : Nat) (hd : P ≤ deg) (hd1 : deg ≤ 19) (junk junk' : Nat → ℝ) :
    let space : FunctionEval.Space ℝ := ⟨t, P, geo, T⟩
    ∃ els A, elements space.t = some els ∧ LocalOperator.compute junk LocalOperator.identity space (gaussSquare es 50 deg) = some A ∧
      A.rows = T.cols ∧ A.cols = T.cols ∧ (∀ c < T.cols, ∀ d < T.cols, A.at' c d = A.at' d c) ∧
      (∀ f : Nat → ℝ, (∃ c < T.cols, f c ≠ 0) → 0 < ∑ c ∈ range T.cols, f c * ∑ d ∈ range T.cols, A.at' c d * f d) ∧
      ∀ g : V3 → ℝ, ∃ v, LinearForm.compute junk' (LinearForm.dirichlet g) space (gaussSquare es 50 deg) = some v ∧
        ∃ x : Nat → ℝ, (∀ c < T.cols, ∑ d ∈ range T.cols, A.at' c d * x d = v.at' c 0) ∧
          (∀ y : Nat → ℝ, (∀ c < T.cols, ∑ d ∈ range T.cols, A.at' c d * y d = v.at' c 0) → ∀ c < T.cols, y c = x c) ∧
          ∀ f : EMat ℝ, (∀ a ∈ els, ∀ s : ℝ × ℝ, 0 < s.1 → s.1 < 1 → 0 < s.2 → s.2 < 1 → g (elementPoint t geo a s).f = discreteFunction T f (nP * 4 ^ M) P 0 (t.id a) (getH t a) s) →
            ∀ c < T.cols, x c = f.at' c 0 := by
  intro space
  obtain ⟨u, g1, -, g3, -⟩ := tree_facts (K := ℝ) near corner nP M hnP
  obtain rfl : u = t := Option.some.inj (g1.symm.trans ht)
  have := WellPosed.mass near corner nP M hnP space ht (by
      show T.rows = 1 * ((P + 1) * (P + 1) * u.nElements)
      rw [WellPosed.cont_rows near corner junkP junkM solve hs P M nP rep hnP hP0 (by omega) hrep hrP hc ho u ht T hT, g3]; ring) hreg (by
      intro f hf
      refine C83_continuous near corner junkP junkM solve hs P M nP rep hnP hP0 hP hrep hrP hc ho u ht T hT f ?_
      rw [WellPosed.ofReal_self]; exact hf) es deg hd hd1 junk junk'
  rw [← g3]
  exact this

end Bembel.Props
