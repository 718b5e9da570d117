import Verif.Lemmas.InterpError
import Verif.Lemmas.ChebyshevBound
import Verif.Lemmas.NewtonKernel
import Verif.Spec.Compression
import Verif.Props.H2Init
import Verif.Props.MeshSurface
import Verif.Props.Patch
import Verif.Lemmas.Bernstein
import Verif.Lemmas.BallEquations
import Verif.Props.Motion
/-!
# C87: accuracy of the compression
-/

namespace Bembel.Props
open Finset Mesh H2 Spec Util BlockCluster

variable {R : Type} [RCLike R]

namespace Compress

theorem inCluster_square {V : Type} (near : V → V → Bool) (corner : Nat → Nat → V) (P M : Nat) (hP : 0 < P)
    (t : Mesh.Tree ℝ) (ht : initElementTree near corner P M = some t) (l : Nat) (hl : l ≤ M) (c : Addr) (hc : IsNode P l c) (L : List Addr)
    (hL : clusterElements t c = some L) (a : Addr) (ha : a ∈ L) : IsNode P M a ∧ t.patch a = t.patch c ∧
      ∀ ξ, ClosedSquare ξ → ClosedSquare (inCluster t c a ξ) := by
  obtain ⟨t', k1, k2, -⟩ := tree_facts (K := ℝ) near corner P M hP
  obtain rfl : t = t' := Option.some.inj (ht.symm.trans k1)
  obtain ⟨t', e1, e2⟩ := C25_cluster_range (K := ℝ) near corner P M hP
  obtain rfl : t = t' := Option.some.inj (ht.symm.trans e1)
  obtain ⟨L', u1, u2, -⟩ := e2 l c hl hc
  obtain rfl : L = L' := Option.some.inj (hL.symm.trans u1)
  obtain ⟨path, q1, q2, rfl⟩ := (u2 a).1 ha
  have hb : IsNode P M (c.1, path ++ c.2) := ⟨hc.1, by simp [q1, hc.2.1]; omega, by
    intro x hx
    rcases List.mem_append.1 hx with h | h
    · exact q2 x h
    · exact hc.2.2 x h⟩
  obtain ⟨-, v2, v3, v4⟩ := k2 M le_rfl _ (mem_leaves.2 hb)
  obtain ⟨-, w2, w3, w4⟩ := k2 l hl c (mem_leaves.2 hc)
  refine ⟨hb, by rw [v3, w3], fun ξ hξ => ?_⟩
  have hq := posX_append path c.2
  have hp := pos_lt path
  have hh : getH t (c.1, path ++ c.2) = 1 / 2 ^ (path ++ c.2).length := by unfold getH; rw [v2]
  have hhc : getH t c = 1 / 2 ^ c.2.length := by unfold getH; rw [w2]
  have e1 : ((posX path : Nat) : ℝ) + 1 ≤ 2 ^ path.length := by exact_mod_cast hp.1
  have e2 : ((posY path : Nat) : ℝ) + 1 ≤ 2 ^ path.length := by exact_mod_cast hp.2
  have k1 : (inCluster t c (c.1, path ++ c.2) ξ).1 = ((posX path : ℝ) + ξ.1) / 2 ^ path.length := by
    simp only [inCluster, mapToReferenceElement, hh, hhc, v4, w4, hq.1, List.length_append, pow_add]
    push_cast
    field_simp
    ring
  have k2 : (inCluster t c (c.1, path ++ c.2) ξ).2 = ((posY path : ℝ) + ξ.2) / 2 ^ path.length := by
    simp only [inCluster, mapToReferenceElement, hh, hhc, v4, w4, hq.2, List.length_append, pow_add]
    push_cast
    field_simp
    ring
  obtain ⟨x0, x1, y0, y1⟩ := hξ
  unfold ClosedSquare
  rw [k1, k2]
  refine ⟨by positivity, ?_, by positivity, ?_⟩
  · rw [div_le_one (by positivity)]; linarith
  · rw [div_le_one (by positivity)]; linarith

/-- The direct entry in the form of the far field entry. -/
theorem direct_eq {V : Type} (near : V → V → Bool) (corner : Nat → Nat → V) (P M : Nat) (hP : 0 < P)
    (t : Mesh.Tree ℝ) (ht : initElementTree near corner P M = some t) (geo : Nat → ℝ × ℝ → V3 × V3 × V3)
    (hgeo : Spec.RegularPatches P geo) (op : Operator R) (T : (P M d a i : Nat) → ℝ × ℝ → ℝ)
    (hop : Contracts op T) (hpos : PositionOnly op) (Q : Quad1 ℝ) (hQ : ∀ q < Q.size, 0 ≤ Q.xi q ∧ Q.xi q ≤ 1) (p : Nat)
    (jr : Nat → ℝ) (jk : Nat → R) (c1 c2 : Addr) (a b : Addr) (n1 : IsNode P M a) (n2 : IsNode P M b)
    (p1 : t.patch a = t.patch c1) (p2 : t.patch b = t.patch c2)
    (i j : Nat) (hi : i < op.vd) (hj : j < op.vd) (r c : Nat) (hr : r < (p + 1) * (p + 1)) (hc : c < (p + 1) * (p + 1)) :
    directEntry t op (SuperSpace.map2surface t geo) Q p M jr jk a b (i * ((p + 1) * (p + 1)) + r) (j * ((p + 1) * (p + 1)) + c) =
      algebraMap ℝ R (getH t a * getH t b) * quadSquare Q fun ξ => quadSquare Q fun η =>
        ∑ α ∈ range op.nc, ∑ β ∈ range op.nc, algebraMap ℝ R (T p M i α r ξ * T p M j β c η) *
          op.fmm (SuperSpace.map2surface t geo c1 (inCluster t c1 a ξ) 1) (SuperSpace.map2surface t geo c2 (inCluster t c2 b η) 1)
            (i * op.nc + α) (j * op.nc + β) := by
  have hreg := node_regular near corner P M hP t ht geo hgeo M le_rfl
  have hsq : ∀ q ∈ range Q.size, ∀ q' ∈ range Q.size, Spec.ClosedSquare (Q.xi q, Q.xi q') := fun q hq q' hq' =>
    ⟨(hQ q (mem_range.1 hq)).1, (hQ q (mem_range.1 hq)).2, (hQ q' (mem_range.1 hq')).1, (hQ q' (mem_range.1 hq')).2⟩
  unfold directEntry quadSquare
  simp only [mul_sum]
  refine sum_congr rfl fun q hq => sum_congr rfl fun q' hq' => sum_congr rfl fun s hs => sum_congr rfl fun s' hs' => ?_
  rw [(hop jr jk p M (SuperSpace.map2surface t geo a (Q.xi q, Q.xi q') (getH t a * (Q.w q * Q.w q')))
    (SuperSpace.map2surface t geo b (Q.xi s, Q.xi s') (getH t b * (Q.w s * Q.w s'))) (fun _ _ => 0) (hreg a n1 _ (hsq q hq q' hq') _)
    (hreg b n2 _ (hsq s hs s' hs') _)).1
    i hi j hj r hr c hc, zero_add, mul_sum]
  refine sum_congr rfl fun α _ => ?_
  rw [mul_sum]
  refine sum_congr rfl fun β _ => ?_
  rw [map2surface_cluster t geo c1 a p1, map2surface_cluster t geo c2 b p2]
  have e := hpos (SuperSpace.map2surface t geo a (Q.xi q, Q.xi q') (getH t a * (Q.w q * Q.w q')))
    (SuperSpace.map2surface t geo b (Q.xi s, Q.xi s') (getH t b * (Q.w s * Q.w s'))) (inCluster t c1 a (Q.xi q, Q.xi q'))
    (inCluster t c2 b (Q.xi s, Q.xi s')) 1 1 (i * op.nc + α) (j * op.nc + β)
  simp only [SuperSpace.map2surface] at e ⊢
  rw [e]
  simp only [map_mul]
  ring

theorem quadSquare_sub (Q : Quad1 ℝ) (g h : ℝ × ℝ → R) : quadSquare Q g - quadSquare Q h = quadSquare Q fun ξ => g ξ - h ξ := by
  unfold quadSquare
  simp only [← sum_sub_distrib, ← mul_sub]

theorem quadSquare_bound (Q : Quad1 ℝ) (g : ℝ × ℝ → R) (G : ℝ × ℝ → ℝ) (hg : ∀ q < Q.size, ∀ q' < Q.size, ‖g (Q.xi q, Q.xi q')‖ ≤ G (Q.xi q, Q.xi q')) :
    ‖quadSquare Q g‖ ≤ ∑ q ∈ range Q.size, ∑ q' ∈ range Q.size, |Q.w q * Q.w q'| * G (Q.xi q, Q.xi q') := by
  unfold quadSquare
  refine (norm_sum_le _ _).trans (sum_le_sum fun q hq => (norm_sum_le _ _).trans (sum_le_sum fun q' hq' => ?_))
  rw [norm_mul, norm_algebraMap', Real.norm_eq_abs]
  exact mul_le_mul_of_nonneg_left (hg q (mem_range.1 hq) q' (mem_range.1 hq')) (abs_nonneg _)

theorem abs_sums (Q : Quad1 ℝ) (m : Nat) (F G : Nat → ℝ × ℝ → ℝ) (ε : ℝ) :
    ∑ q ∈ range Q.size, ∑ q' ∈ range Q.size, |Q.w q * Q.w q'| * ∑ s ∈ range Q.size, ∑ s' ∈ range Q.size, |Q.w s * Q.w s'| *
      ∑ α ∈ range m, ∑ β ∈ range m, (|F α (Q.xi q, Q.xi q')| * |G β (Q.xi s, Q.xi s')|) * ε =
    ε * ∑ α ∈ range m, ∑ β ∈ range m, absQuad Q (F α) * absQuad Q (G β) := by
  have lin : ∀ (K : Nat → ℝ × ℝ → ℝ), ∑ s ∈ range Q.size, ∑ s' ∈ range Q.size, |Q.w s * Q.w s'| * ∑ β ∈ range m, |K β (Q.xi s, Q.xi s')| =
      ∑ β ∈ range m, absQuad Q (K β) := by
    intro K
    unfold absQuad
    simp only [mul_sum]
    rw [sum_comm]
    simp only [sum_comm (s := range Q.size) (t := range m)]
    refine sum_congr rfl fun β _ => ?_
    rw [sum_comm]
  have e1 : ∀ q q', ∑ s ∈ range Q.size, ∑ s' ∈ range Q.size, |Q.w s * Q.w s'| *
      ∑ α ∈ range m, ∑ β ∈ range m, (|F α (Q.xi q, Q.xi q')| * |G β (Q.xi s, Q.xi s')|) * ε =
      (∑ α ∈ range m, |F α (Q.xi q, Q.xi q')|) * ((∑ β ∈ range m, absQuad Q (G β)) * ε) := by
    intro q q'
    rw [← lin]
    simp only [← sum_mul, ← mul_sum]
    generalize ∑ α ∈ range m, |F α (Q.xi q, Q.xi q')| = A
    rw [sum_mul, mul_sum]
    refine sum_congr rfl fun s _ => ?_
    rw [sum_mul, mul_sum]
    refine sum_congr rfl fun s' _ => ?_
    ring
  rw [sum_congr rfl fun q _ => sum_congr rfl fun q' _ => by rw [e1, ← mul_assoc]]
  simp only [← sum_mul]
  rw [lin, ← mul_assoc, sum_mul_sum, mul_comm]

end Compress
open Compress

/-- C87: if the interpolation of the far field kernels has error at most `ε` in the quadrature points, then the far field entry differs from
the quadrature of the integrand by at most `ε` times the size of the test and trial functions. -/
theorem C87_entry {V : Type} (near : V → V → Bool) (corner : Nat → Nat → V) (P M : Nat) (hP : 0 < P)
    (t : Mesh.Tree ℝ) (ht : initElementTree near corner P M = some t) (geo : Nat → ℝ × ℝ → V3 × V3 × V3)
    (hgeo : Spec.RegularPatches P geo) (op : Operator R) (T : (P M d a i : Nat) → ℝ × ℝ → ℝ)
    (hop : Contracts op T) (hpos : PositionOnly op) (Q : Quad1 ℝ) (hQ : ∀ q < Q.size, 0 ≤ Q.xi q ∧ Q.xi q ≤ 1) (x : Nat → ℝ) (n p : Nat)
    (jr : Nat → ℝ) (jk : Nat → R) (l : Nat) (hl : l ≤ M) (c1 c2 : Addr) (h1 : IsNode P l c1) (h2 : IsNode P l c2) (L1 L2 : List Addr)
    (hL1 : clusterElements t c1 = some L1) (hL2 : clusterElements t c2 = some L2) (a b : Addr) (ha : a ∈ L1) (hb : b ∈ L2) (ε : ℝ)
    (hint : ∀ y z, ClosedSquare y → ClosedSquare z → ∀ k < op.vd * op.nc, ∀ l < op.vd * op.nc, ‖interpolate x n
        (fun y z => op.fmm (SuperSpace.map2surface t geo c1 y 1) (SuperSpace.map2surface t geo c2 z 1) k l) y z -
      op.fmm (SuperSpace.map2surface t geo c1 y 1) (SuperSpace.map2surface t geo c2 z 1) k l‖ ≤ ε)
    (i j : Nat) (hi : i < op.vd) (hj : j < op.vd) (r c : Nat) (hr : r < (p + 1) * (p + 1)) (hc : c < (p + 1) * (p + 1)) :
    ‖farEntry t op (SuperSpace.map2surface t geo) Q x n (T p M) c1 c2 a b i j r c -
      directEntry t op (SuperSpace.map2surface t geo) Q p M jr jk a b (i * ((p + 1) * (p + 1)) + r) (j * ((p + 1) * (p + 1)) + c)‖ ≤
      ε * (getH t a * getH t b * ∑ α ∈ range op.nc, ∑ β ∈ range op.nc, absQuad Q (T p M i α r) * absQuad Q (T p M j β c)) := by
  obtain ⟨n1, p1, s1⟩ := inCluster_square near corner P M hP t ht l hl c1 h1 L1 hL1 a ha
  obtain ⟨n2, p2, s2⟩ := inCluster_square near corner P M hP t ht l hl c2 h2 L2 hL2 b hb
  have hsq : ∀ q < Q.size, ∀ q' < Q.size, Spec.ClosedSquare (Q.xi q, Q.xi q') := fun q hq q' hq' =>
    ⟨(hQ q hq).1, (hQ q hq).2, (hQ q' hq').1, (hQ q' hq').2⟩
  rw [direct_eq near corner P M hP t ht geo hgeo op T hop hpos Q hQ p jr jk c1 c2 a b n1 n2 p1 p2 i j hi hj r c hr hc]
  unfold farEntry
  rw [← mul_sub, norm_mul, norm_algebraMap', Real.norm_eq_abs, quadSquare_sub]
  have hh : 0 ≤ getH t a * getH t b := by unfold getH; positivity
  rw [abs_of_nonneg hh]
  have idx : ∀ i α, i < op.vd → α < op.nc → i * op.nc + α < op.vd * op.nc := fun i α hi hα => by
    calc i * op.nc + α < i * op.nc + op.nc := by omega
      _ = (i + 1) * op.nc := by ring
      _ ≤ op.vd * op.nc := Nat.mul_le_mul_right _ hi
  have key := quadSquare_bound (R := R) Q
    (fun ξ => (quadSquare Q fun η => ∑ α ∈ range op.nc, ∑ β ∈ range op.nc, algebraMap ℝ R (T p M i α r ξ * T p M j β c η) *
      interpolate x n (fun y z => op.fmm (SuperSpace.map2surface t geo c1 y 1) (SuperSpace.map2surface t geo c2 z 1) (i * op.nc + α) (j * op.nc + β))
        (inCluster t c1 a ξ) (inCluster t c2 b η)) -
      quadSquare Q fun η => ∑ α ∈ range op.nc, ∑ β ∈ range op.nc, algebraMap ℝ R (T p M i α r ξ * T p M j β c η) *
        op.fmm (SuperSpace.map2surface t geo c1 (inCluster t c1 a ξ) 1) (SuperSpace.map2surface t geo c2 (inCluster t c2 b η) 1)
          (i * op.nc + α) (j * op.nc + β))
    (fun ξ => ∑ s ∈ range Q.size, ∑ s' ∈ range Q.size, |Q.w s * Q.w s'| * ∑ α ∈ range op.nc, ∑ β ∈ range op.nc,
      (|T p M i α r ξ| * |T p M j β c (Q.xi s, Q.xi s')|) * ε) (by
    intro q hq q' hq'
    rw [quadSquare_sub]
    refine quadSquare_bound Q _ (fun η => ∑ α ∈ range op.nc, ∑ β ∈ range op.nc,
      (|T p M i α r (Q.xi q, Q.xi q')| * |T p M j β c η|) * ε) fun s hs s' hs' => ?_
    rw [← sum_sub_distrib]
    refine (norm_sum_le _ _).trans (sum_le_sum fun α hα => ?_)
    rw [← sum_sub_distrib]
    refine (norm_sum_le _ _).trans (sum_le_sum fun β hβ => ?_)
    rw [← mul_sub, norm_mul, norm_algebraMap', Real.norm_eq_abs, abs_mul]
    exact mul_le_mul_of_nonneg_left (hint _ _ (s1 _ (hsq q hq q' hq')) (s2 _ (hsq s hs s' hs')) _ (idx i α hi (mem_range.1 hα)) _
      (idx j β hj (mem_range.1 hβ))) (by positivity))
  refine (mul_le_mul_of_nonneg_left key hh).trans (le_of_eq ?_)
  rw [mul_left_comm ε]
  congr 1
  exact (abs_sums Q op.nc (fun α => T p M i α r) (fun β => T p M j β c) ε)

/-- C87: error of the interpolation of a smooth function of two points.  `L` bounds the Lebesgue function of the points, `N` their node
polynomial. -/
theorem C87_interpolation (n : Nat) (x : Nat → ℝ) (hx : Distinct x n) (hx01 : ∀ i < n, 0 ≤ x i ∧ x i ≤ 1) (L N : ℝ)
    (hL : ∀ s : ℝ, 0 ≤ s → s ≤ 1 → ∑ i ∈ range n, |lagrange x n i s| ≤ L) (hN : ∀ s : ℝ, 0 ≤ s → s ≤ 1 → ∏ i ∈ range n, |s - x i| ≤ N)
    (f : ℝ × ℝ → ℝ × ℝ → R) (D : ℝ) (hf : PartialBound n f D) (y z : ℝ × ℝ) (hy : ClosedSquare y) (hz : ClosedSquare z) :
    ‖interpolate x n f y z - f y z‖ ≤ (1 + L + L ^ 2 + L ^ 3) * (D / n.factorial * N) := by
  have one : ∀ (g : ℝ → R), DerivBound n g D → ∀ s ∈ Set.Icc (0 : ℝ) 1, ‖Interpol.interp x n g s - g s‖ ≤ D / n.factorial * N := by
    intro g hg s hs
    have := Interpol.error_one n x hx hx01 (fun k s => iteratedDerivWithin k g (Set.Icc 0 1) s) (Interpol.chain_of_contDiffOn n g hg.1) D hg.2 s hs
    simp only [iteratedDerivWithin_zero] at this
    refine this.trans (mul_le_mul_of_nonneg_left (hN s hs.1 hs.2) (div_nonneg ((norm_nonneg _).trans (hg.2 s hs)) (by positivity)))
  exact Interpol.error_four n x hx01 L (fun s hs => hL s hs.1 hs.2) f _
    (fun b hb c hc d hd => one _ (hf (b, b) (c, d) ⟨hb.1, hb.2, hb.1, hb.2⟩ ⟨hc.1, hc.2, hd.1, hd.2⟩).1)
    (fun a ha c hc d hd => one _ (hf (a, a) (c, d) ⟨ha.1, ha.2, ha.1, ha.2⟩ ⟨hc.1, hc.2, hd.1, hd.2⟩).2.1)
    (fun a ha b hb d hd => one _ (hf (a, b) (d, d) ⟨ha.1, ha.2, hb.1, hb.2⟩ ⟨hd.1, hd.2, hd.1, hd.2⟩).2.2.1)
    (fun a ha b hb c hc => one _ (hf (a, b) (c, c) ⟨ha.1, ha.2, hb.1, hb.2⟩ ⟨hc.1, hc.2, hc.1, hc.2⟩).2.2.2)
    y z ⟨hy.1, hy.2.1⟩ ⟨hy.2.2.1, hy.2.2.2⟩ ⟨hz.1, hz.2.1⟩ ⟨hz.2.2.1, hz.2.2.2⟩

/-- C87: the interpolation points of the code are Chebyshev points: every Lagrange polynomial is bounded by two, and the node
polynomial by `2 / 4 ^ n`. -/
theorem C87_chebyshev (n : Nat) (hn : 0 < n) (s : ℝ) (h0 : 0 ≤ s) (h1 : s ≤ 1) :
    (∀ i < n, |lagrange (chebychevRoots n) n i s| ≤ 2) ∧ ∏ i ∈ range n, |s - chebychevRoots n i| ≤ 2 / 4 ^ n :=
  ⟨fun i hi => Interpol.lagrange_bound n i hi s ⟨h0, h1⟩, Interpol.node_bound n hn s ⟨h0, h1⟩⟩

namespace Compress

theorem cheb_facts (n : Nat) : Distinct (chebychevRoots n) n ∧ ∀ i < n, 0 ≤ chebychevRoots n i ∧ chebychevRoots n i ≤ 1 :=
  ⟨(C40_chebyshev n).2.2, fun i hi => ⟨((C40_chebyshev n).1 i hi).1.le, ((C40_chebyshev n).1 i hi).2.le⟩⟩

/-- The factor in front of the exponential. -/
def growth (n : Nat) : ℝ := 1 + 2 * n + (2 * n) ^ 2 + (2 * n) ^ 3

theorem growth_nonneg (n : Nat) : 0 ≤ growth n := by unfold growth; positivity

theorem growth_tendsto (γ : ℝ) (h0 : 0 ≤ γ) (h1 : γ < 1) (k : Nat) :
    Filter.Tendsto (fun n : Nat => ((n : ℝ) + 1) ^ k * growth n * γ ^ n) Filter.atTop (nhds 0) := by
  have h := tendsto_pow_const_mul_const_pow_of_lt_one (k + 3) h0 h1
  have h2 := h.const_mul (2 ^ k * 15)
  rw [mul_zero] at h2
  refine squeeze_zero' (Filter.Eventually.of_forall fun n => by have := growth_nonneg n; positivity) ?_ h2
  filter_upwards [Filter.eventually_ge_atTop 1] with n hn
  have hn' : (1 : ℝ) ≤ n := by exact_mod_cast hn
  have e1 : growth n ≤ 15 * n ^ 3 := by
    unfold growth
    have a1 : (n : ℝ) ≤ n ^ 3 := by nlinarith [sq_nonneg ((n : ℝ)), mul_nonneg (by linarith : (0 : ℝ) ≤ n) (by nlinarith : (0 : ℝ) ≤ n ^ 2 - 1)]
    have a2 : (n : ℝ) ^ 2 ≤ n ^ 3 := by nlinarith [sq_nonneg (n : ℝ)]
    nlinarith
  have e2 : ((n : ℝ) + 1) ^ k ≤ 2 ^ k * n ^ k := by
    rw [← mul_pow]; exact pow_le_pow_left₀ (by positivity) (by linarith) k
  calc ((n : ℝ) + 1) ^ k * growth n * γ ^ n ≤ (2 ^ k * n ^ k) * (15 * n ^ 3) * γ ^ n :=
        mul_le_mul_of_nonneg_right (mul_le_mul e2 e1 (growth_nonneg n) (by positivity)) (by positivity)
    _ = 2 ^ k * 15 * (n ^ (k + 3) * γ ^ n) := by rw [pow_add]; ring

end Compress

/-- C87: with the interpolation points of the code the interpolant of a kernel whose derivatives of order `n` are bounded by `C n! γ ^ n`
differs from the kernel by at most `2 C (1 + 2n + 4n² + 8n³) (γ / 4) ^ n`. -/
theorem C87_smooth (n : Nat) (hn : 0 < n) (f : ℝ × ℝ → ℝ × ℝ → R) (C γ : ℝ) (hf : PartialBound n f (C * n.factorial * γ ^ n))
    (y z : ℝ × ℝ) (hy : ClosedSquare y) (hz : ClosedSquare z) :
    ‖interpolate (chebychevRoots n) n f y z - f y z‖ ≤ 2 * C * (1 + 2 * n + (2 * n) ^ 2 + (2 * n) ^ 3) * (γ / 4) ^ n := by
  refine (C87_interpolation n _ (cheb_facts n).1 (cheb_facts n).2 (2 * n) (2 / 4 ^ n) (fun s h0 h1 => Interpol.lebesgue_bound n s ⟨h0, h1⟩)
    (fun s h0 h1 => Interpol.node_bound n hn s ⟨h0, h1⟩) f _ hf y z hy hz).trans (le_of_eq ?_)
  have : (n.factorial : ℝ) ≠ 0 := by positivity
  rw [div_pow]
  field_simp

/-- C87: consequently the interpolation converges exponentially, uniformly on the pair of clusters, if `γ < 4`. -/
theorem C87_convergence (f : ℝ × ℝ → ℝ × ℝ → R) (C γ : ℝ) (h0 : 0 ≤ γ) (h4 : γ < 4) (hf : ∀ n, PartialBound n f (C * n.factorial * γ ^ n))
    (ε : ℝ) (hε : 0 < ε) : ∃ n0, ∀ n ≥ n0, ∀ y z, ClosedSquare y → ClosedSquare z → ‖interpolate (chebychevRoots n) n f y z - f y z‖ ≤ ε := by
  have h := (growth_tendsto (γ / 4) (by positivity) (by linarith) 0).const_mul (2 * C)
  rw [mul_zero] at h
  have h2 := (h.eventually_lt_const hε).and (Filter.eventually_ge_atTop 1)
  obtain ⟨n0, h3⟩ := Filter.eventually_atTop.1 h2
  refine ⟨n0, fun n hn y z hy hz => (C87_smooth n (h3 n hn).2 f C γ (hf n) y z hy hz).trans ?_⟩
  refine le_trans (le_of_eq ?_) (h3 n hn).1.le
  unfold growth
  ring

/-! ### the single layer operator of the Laplace equation on flat patches -/

namespace Compress

theorem cross_le (u v : V3) : ‖cross3 u v‖ ≤ ‖u‖ * ‖v‖ := by
  rw [← sq_le_sq₀ (norm_nonneg _) (by positivity), mul_pow, EuclideanSpace.real_norm_sq_eq, EuclideanSpace.real_norm_sq_eq,
    EuclideanSpace.real_norm_sq_eq]
  simp only [Fin.sum_univ_three, cross3, Matrix.cons_val_zero, Matrix.cons_val_one, Matrix.cons_val]
  nlinarith [sq_nonneg (u 0 * v 0 + u 1 * v 1 + u 2 * v 2)]

/-- Interpolation of the kernel along a line. -/
theorem line_error (n : Nat) (hn : 0 < n) (g : ℝ → ℝ) (κ : ℝ) (hκ : 0 ≤ κ) (a b : V3) (hb : b ≠ 0) (δ β : ℝ) (hδ : 0 < δ)
    (hd : ∀ s ∈ Set.Icc (0 : ℝ) 1, δ ≤ ‖a + s • b‖) (hg : ∀ s ∈ Set.Icc (0 : ℝ) 1, g s = κ * (1 / ‖a + s • b‖)) (hβ : ‖b‖ ≤ β * δ) :
    ∀ s ∈ Set.Icc (0 : ℝ) 1, ‖Interpol.interp (chebychevRoots n) n g s - g s‖ ≤ 2 * κ * (n + 1) / δ * (β / 4) ^ n := by
  intro s hs
  obtain ⟨G, g1, g2, g3⟩ := Interpol.newton_chain a b hb δ hδ hd n
  have eqs : ∀ s ∈ Set.Icc (0 : ℝ) 1, g s = κ * G 0 s := fun s hs => by rw [hg s hs, g2 s hs]
  have e0 : Interpol.interp (chebychevRoots n) n g s = Interpol.interp (chebychevRoots n) n (fun s => κ * G 0 s) s := by
    unfold Interpol.interp
    refine sum_congr rfl fun i hi => ?_
    rw [eqs _ ((cheb_facts n).2 i (mem_range.1 hi))]
  rw [e0, eqs s hs]
  have hβ0 : 0 ≤ β := by
    by_contra h
    push Not at h
    have := (norm_nonneg b).trans hβ
    nlinarith
  refine (Interpol.error_one (R := ℝ) n _ (cheb_facts n).1 (cheb_facts n).2 (fun k s => κ * G k s) (fun k hk s hs => (g1 k hk s hs).const_mul κ)
    (κ * ((n + 1) * n.factorial * (β * δ) ^ n / δ ^ (n + 1))) (fun s hs => ?_) s hs).trans ?_
  · rw [Real.norm_eq_abs, abs_mul, abs_of_nonneg hκ]
    refine mul_le_mul_of_nonneg_left ((g3 s hs).trans ?_) hκ
    gcongr
  · have hnb := Interpol.node_bound n hn s hs
    calc κ * ((n + 1) * n.factorial * (β * δ) ^ n / δ ^ (n + 1)) / n.factorial * ∏ i ∈ range n, |s - chebychevRoots n i|
        ≤ κ * ((n + 1) * n.factorial * (β * δ) ^ n / δ ^ (n + 1)) / n.factorial * (2 / 4 ^ n) := by
          refine mul_le_mul_of_nonneg_left hnb (by positivity)
      _ = _ := by
          have : (n.factorial : ℝ) ≠ 0 := by positivity
          rw [mul_pow, div_pow, pow_succ]
          field_simp

/-- Points of a cluster on a flat patch. -/
theorem flat_point {V : Type} (near : V → V → Bool) (corner : Nat → Nat → V) (P M : Nat) (hP : 0 < P)
    (t : Mesh.Tree ℝ) (ht : initElementTree near corner P M = some t) (geo : Nat → ℝ × ℝ → V3 × V3 × V3) (S : ℝ) (hflat : FlatPatches P geo S)
    (l : Nat) (hl : l ≤ M) (c : Addr) (hc : IsNode P l c) : ∃ o u v : V3, ‖u‖ ≤ S ∧ ‖v‖ ≤ S ∧ getH t c = 1 / 2 ^ l ∧ ∀ y, ClosedSquare y → ∀ w,
      SuperSpace.map2surface t geo c y w = ⟨y, w, o + y.1 • (getH t c • u) + y.2 • (getH t c • v), u, v⟩ := by
  obtain ⟨t', k1, k2, -⟩ := tree_facts (K := ℝ) near corner P M hP
  obtain rfl : t = t' := Option.some.inj (ht.symm.trans k1)
  obtain ⟨-, v2, v3, v4⟩ := k2 l hl c (mem_leaves.2 hc)
  obtain ⟨o, u, v, h1, h2, h3⟩ := hflat c.1 hc.1
  refine ⟨o + (t.llc c).1 • u + (t.llc c).2 • v, u, v, h1, h2, by unfold getH; rw [v2, hc.2.1], fun y hy w => ?_⟩
  have hsq := node_square near corner P M hP t ht l hl c hc y hy
  unfold SuperSpace.map2surface
  simp only
  rw [v3, h3 _ hsq.2]
  congr 1
  simp only
  module

/-- On flat patches the bounding balls contain the whole clusters. -/
theorem flat_ball (near : V3 → V3 → Bool) (corner : Nat → Nat → V3) (P M : Nat) (hP : 0 < P) (hc : ConformingPatches near corner P)
    (geo : Nat → ℝ × ℝ → V3 × V3 × V3) (S : ℝ) (hflat : FlatPatches P geo S) (hw : Watertight corner P fun p s => (geo p s).1)
    (t : Mesh.Tree ℝ) (ht : initElementTree near corner P M = some t) (junk : Nat → V3) (B0 B : Addr → Ball V3)
    (hB : computeElementEnclosings t (fun p s => (geo p s).1) junk B0 = some B) :
    ∀ l ≤ M, ∀ a, IsNode P l a → 0 ≤ (B a).rad ∧ ∀ y, ClosedSquare y → ‖(SuperSpace.map2surface t geo a y 1).f - (B a).mid‖ ≤ (B a).rad := by
  obtain ⟨t', h1, B', h2, h3⟩ := C24_balls near corner P M hP hc (fun p s => (geo p s).1) hw junk B0
  obtain rfl : t = t' := Option.some.inj (ht.symm.trans h1)
  obtain rfl : B = B' := Option.some.inj (hB.symm.trans h2)
  obtain ⟨t', k1, k2, -⟩ := tree_facts (K := ℝ) near corner P M hP
  obtain rfl : t = t' := Option.some.inj (ht.symm.trans k1)
  suffices H : ∀ k l, l + k = M → ∀ a, IsNode P l a → ∀ y, ClosedSquare y → ‖(SuperSpace.map2surface t geo a y 1).f - (B a).mid‖ ≤ (B a).rad by
    exact fun l hl a ha => ⟨(h3 l hl a ha).1, H (M - l) l (by omega) a ha⟩
  intro k
  induction k with
  | zero =>
    intro l hl a ha y hy
    obtain rfl : l = M := by omega
    obtain ⟨o, u, v, -, -, -, hp⟩ := flat_point near corner P l hP t ht geo S hflat l le_rfl a ha
    obtain ⟨y0, y1, y2, y3⟩ := hy
    have cb : ∀ j < 4, ‖o + (cornerPoint j : ℝ × ℝ).1 • (getH t a • u) + (cornerPoint j : ℝ × ℝ).2 • (getH t a • v) - (B a).mid‖ ≤ (B a).rad := by
      intro j hj
      have := (h3 l le_rfl a ha).2.1 a ha rfl ⟨[], rfl⟩ j hj
      have hs : ClosedSquare (cornerPoint j : ℝ × ℝ) := by
        have : j = 0 ∨ j = 1 ∨ j = 2 ∨ j = 3 := by omega
        rcases this with rfl | rfl | rfl | rfl <;> simp [ClosedSquare, cornerPoint, edgePoint]
      have e := congrArg SurfPt.f (hp _ hs 1)
      simp only [SuperSpace.map2surface] at e
      rw [← e]
      exact this
    have b0 := cb 0 (by norm_num)
    have b1 := cb 1 (by norm_num)
    have b2 := cb 2 (by norm_num)
    have b3 := cb 3 (by norm_num)
    simp only [cornerPoint, edgePoint, if_pos, one_ne_zero, if_false, if_true, OfNat.ofNat_ne_zero, OfNat.ofNat_ne_one, zero_smul, one_smul, add_zero,
      sub_zero, Nat.reduceEqDiff] at b0 b1 b2 b3
    rw [hp y ⟨y0, y1, y2, y3⟩ 1]
    simp only
    set m := (B a).mid
    set r := (B a).rad
    have e : o + y.1 • (getH t a • u) + y.2 • (getH t a • v) - m =
        ((1 - y.1) * (1 - y.2)) • (o - m) + (y.1 * (1 - y.2)) • (o + getH t a • u - m) + (y.1 * y.2) • (o + getH t a • u + getH t a • v - m) +
          ((1 - y.1) * y.2) • (o + getH t a • v - m) := by module
    have q0 : 0 ≤ (1 - y.1) * (1 - y.2) := mul_nonneg (by linarith) (by linarith)
    have q1 : 0 ≤ y.1 * (1 - y.2) := mul_nonneg y0 (by linarith)
    have q2 : 0 ≤ y.1 * y.2 := mul_nonneg y0 y2
    have q3 : 0 ≤ (1 - y.1) * y.2 := mul_nonneg (by linarith) y2
    rw [e]
    refine (norm_add_le _ _).trans ?_
    refine (add_le_add_left ((norm_add_le _ _).trans (add_le_add_left (norm_add_le _ _) _)) _).trans ?_
    rw [norm_smul, norm_smul, norm_smul, norm_smul, Real.norm_of_nonneg q0, Real.norm_of_nonneg q1, Real.norm_of_nonneg q2, Real.norm_of_nonneg q3]
    calc _ ≤ (1 - y.1) * (1 - y.2) * r + y.1 * (1 - y.2) * r + y.1 * y.2 * r + (1 - y.1) * y.2 * r :=
          add_le_add (add_le_add (add_le_add (mul_le_mul_of_nonneg_left b0 q0) (mul_le_mul_of_nonneg_left b1 q1)) (mul_le_mul_of_nonneg_left b2 q2))
            (mul_le_mul_of_nonneg_left b3 q3)
      _ = r := by ring
  | succ k ih =>
    intro l hl a ha y hy
    have hl' : l < M := by omega
    have son_point : ∀ i < 4, ∀ y', ClosedSquare y' →
        y.1 = ((if i = 1 ∨ i = 2 then 1 else 0 : ℝ) + y'.1) / 2 → y.2 = ((if i = 2 ∨ i = 3 then 1 else 0 : ℝ) + y'.2) / 2 →
        ‖(SuperSpace.map2surface t geo a y 1).f - (B a).mid‖ ≤ (B a).rad := by
      intro i hi y' hy' e1 e2
      have hs : IsNode P (l + 1) (son a i) := ⟨ha.1, by simp [son, ha.2.1], by
        intro x hx
        simp only [son, List.mem_cons] at hx
        rcases hx with rfl | hx
        · exact hi
        · exact ha.2.2 x hx⟩
      have := ih (l + 1) (by omega) (son a i) hs y' hy'
      have key := (h3 l hl'.le a ha).2.2 hl' i hi _ this
      obtain ⟨-, v2, v3, v4⟩ := k2 l hl'.le a (mem_leaves.2 ha)
      obtain ⟨-, w2, w3, w4⟩ := k2 (l + 1) hl' (son a i) (mem_leaves.2 hs)
      have eqp : (SuperSpace.map2surface t geo (son a i) y' 1).f = (SuperSpace.map2surface t geo a y 1).f := by
        simp only [SuperSpace.map2surface, v3, w3, getH, v2, w2, v4, w4]
        simp only [son, posX, posY, List.length_cons, e1, e2, pow_succ]
        congr 3
        · split_ifs <;> · push_cast; field_simp; ring
        · split_ifs <;> · push_cast; field_simp; ring
      rw [eqp] at key
      exact key
    obtain ⟨y0, y1, y2, y3⟩ := hy
    rcases le_total y.1 (1 / 2) with a1 | a1 <;> rcases le_total y.2 (1 / 2) with a2 | a2
    · exact son_point 0 (by norm_num) (2 * y.1, 2 * y.2) ⟨by simp only; linarith, by simp only; linarith, by simp only; linarith, by simp only; linarith⟩ (by norm_num) (by norm_num)
    · exact son_point 3 (by norm_num) (2 * y.1, 2 * y.2 - 1) ⟨by simp only; linarith, by simp only; linarith, by simp only; linarith, by simp only; linarith⟩ (by norm_num) (by norm_num)
    · exact son_point 1 (by norm_num) (2 * y.1 - 1, 2 * y.2) ⟨by simp only; linarith, by simp only; linarith, by simp only; linarith, by simp only; linarith⟩ (by norm_num) (by norm_num)
    · exact son_point 2 (by norm_num) (2 * y.1 - 1, 2 * y.2 - 1) ⟨by simp only; linarith, by simp only; linarith, by simp only; linarith, by simp only; linarith⟩ (by norm_num) (by norm_num)

/-- The far field kernel of the single layer operator on two clusters of flat patches that satisfy the admissibility condition. -/
theorem flat_kernel (n : Nat) (hn : 0 < n) (o1 u1 v1 o2 u2 v2 m1 m2 : V3) (r1 r2 eta : ℝ) (h1 h2 : ℝ) (hh1 : 0 < h1) (hh2 : 0 < h2) (he : 0 < eta)
    (hu1 : u1 ≠ 0) (hv1 : v1 ≠ 0) (hu2 : u2 ≠ 0) (hv2 : v2 ≠ 0)
    (hr1 : 0 ≤ r1) (hadm : max r1 r2 < eta * (‖m1 - m2‖ - r1 - r2))
    (b1 : ∀ y : ℝ × ℝ, ClosedSquare y → ‖o1 + y.1 • (h1 • u1) + y.2 • (h1 • v1) - m1‖ ≤ r1)
    (b2 : ∀ y : ℝ × ℝ, ClosedSquare y → ‖o2 + y.1 • (h2 • u2) + y.2 • (h2 • v2) - m2‖ ≤ r2)
    (f : ℝ × ℝ → ℝ × ℝ → ℝ) (κ : ℝ) (hκ : 0 ≤ κ) (hf : ∀ y z, ClosedSquare y → ClosedSquare z →
      f y z = κ * (1 / ‖(o1 + y.1 • (h1 • u1) + y.2 • (h1 • v1)) - (o2 + z.1 • (h2 • u2) + z.2 • (h2 • v2))‖))
    (y z : ℝ × ℝ) (hy : ClosedSquare y) (hz : ClosedSquare z) : 0 < ‖m1 - m2‖ - r1 - r2 ∧ h1 * ‖u1‖ ≤ 2 * eta * (‖m1 - m2‖ - r1 - r2) ∧
    ‖interpolate (chebychevRoots n) n f y z - f y z‖ ≤ growth n * (2 * κ * (n + 1) / (‖m1 - m2‖ - r1 - r2) * (eta / 2) ^ n) := by
  set δ := ‖m1 - m2‖ - r1 - r2 with hδ
  have hδ0 : 0 < δ := by
    have : 0 < eta * δ := lt_of_le_of_lt (hr1.trans (le_max_left _ _)) hadm
    exact (mul_pos_iff_of_pos_left he).1 this
  have a1 : r1 ≤ eta * δ := (le_max_left _ _).trans hadm.le
  have a2 : r2 ≤ eta * δ := (le_max_right _ _).trans hadm.le
  have dist : ∀ y z : ℝ × ℝ, ClosedSquare y → ClosedSquare z →
      δ ≤ ‖(o1 + y.1 • (h1 • u1) + y.2 • (h1 • v1)) - (o2 + z.1 • (h2 • u2) + z.2 • (h2 • v2))‖ := by
    intro y z hy hz
    have c1 := b1 y hy
    have c2 := b2 z hz
    set A := o1 + y.1 • (h1 • u1) + y.2 • (h1 • v1)
    set B := o2 + z.1 • (h2 • u2) + z.2 • (h2 • v2)
    have : m1 - m2 = (m1 - A) + (A - B) + (B - m2) := by abel
    have := (congrArg norm this).le.trans ((norm_add_le _ _).trans (add_le_add_left (norm_add_le _ _) _))
    rw [norm_sub_rev m1 A] at this
    rw [hδ]; linarith
  have side : ∀ (o u v m : V3) (h r : ℝ), (∀ y : ℝ × ℝ, ClosedSquare y → ‖o + y.1 • (h • u) + y.2 • (h • v) - m‖ ≤ r) → r ≤ eta * δ →
      ‖h • u‖ ≤ 2 * eta * δ ∧ ‖h • v‖ ≤ 2 * eta * δ := by
    intro o u v m h r hb hr
    have k0 := hb (0, 0) (by norm_num [ClosedSquare])
    have k1 := hb (1, 0) (by norm_num [ClosedSquare])
    have k2 := hb (0, 1) (by norm_num [ClosedSquare])
    simp only [zero_smul, one_smul, add_zero] at k0 k1 k2
    constructor
    · have : h • u = (o + h • u - m) - (o - m) := by abel
      rw [this]
      exact (norm_sub_le _ _).trans (by linarith)
    · have : h • v = (o + h • v - m) - (o - m) := by abel
      rw [this]
      exact (norm_sub_le _ _).trans (by linarith)
  obtain ⟨s1, s2⟩ := side o1 u1 v1 m1 h1 r1 b1 a1
  obtain ⟨s3, s4⟩ := side o2 u2 v2 m2 h2 r2 b2 a2
  have ne : ∀ (h : ℝ) (u : V3), 0 < h → u ≠ 0 → h • u ≠ 0 := fun h u hh hu => smul_ne_zero hh.ne' hu
  refine ⟨hδ0, by rwa [norm_smul, Real.norm_of_nonneg hh1.le] at s1, ?_⟩
  have e4 : (2 * eta / 4) = eta / 2 := by ring
  have err := Interpol.error_four n (chebychevRoots n) (cheb_facts n).2 (2 * n) (fun s hs => Interpol.lebesgue_bound n s hs) f
    (2 * κ * (n + 1) / δ * (2 * eta / 4) ^ n)
    (fun b hb c hc d hd => line_error n hn (fun s => f (s, b) (c, d)) κ hκ (o1 + b • (h1 • v1) - (o2 + c • (h2 • u2) + d • (h2 • v2))) (h1 • u1) (ne _ _ hh1 hu1) δ
      (2 * eta) hδ0 (fun s hs => by
        have := dist (s, b) (c, d) ⟨hs.1, hs.2, hb.1, hb.2⟩ ⟨hc.1, hc.2, hd.1, hd.2⟩
        rw [show o1 + b • (h1 • v1) - (o2 + c • (h2 • u2) + d • (h2 • v2)) + s • (h1 • u1) = (o1 + s • (h1 • u1) + b • (h1 • v1)) - (o2 + c • (h2 • u2) + d • (h2 • v2)) by module]
        exact this) (fun s hs => by
        rw [hf (s, b) (c, d) ⟨hs.1, hs.2, hb.1, hb.2⟩ ⟨hc.1, hc.2, hd.1, hd.2⟩,
          show o1 + b • (h1 • v1) - (o2 + c • (h2 • u2) + d • (h2 • v2)) + s • (h1 • u1) = (o1 + s • (h1 • u1) + b • (h1 • v1)) - (o2 + c • (h2 • u2) + d • (h2 • v2)) by module]) s1)
    (fun a ha c hc d hd => line_error n hn (fun s => f (a, s) (c, d)) κ hκ (o1 + a • (h1 • u1) - (o2 + c • (h2 • u2) + d • (h2 • v2))) (h1 • v1) (ne _ _ hh1 hv1) δ
      (2 * eta) hδ0 (fun s hs => by
        have := dist (a, s) (c, d) ⟨ha.1, ha.2, hs.1, hs.2⟩ ⟨hc.1, hc.2, hd.1, hd.2⟩
        rw [show o1 + a • (h1 • u1) - (o2 + c • (h2 • u2) + d • (h2 • v2)) + s • (h1 • v1) = (o1 + a • (h1 • u1) + s • (h1 • v1)) - (o2 + c • (h2 • u2) + d • (h2 • v2)) by module]
        exact this) (fun s hs => by
        rw [hf (a, s) (c, d) ⟨ha.1, ha.2, hs.1, hs.2⟩ ⟨hc.1, hc.2, hd.1, hd.2⟩,
          show o1 + a • (h1 • u1) - (o2 + c • (h2 • u2) + d • (h2 • v2)) + s • (h1 • v1) = (o1 + a • (h1 • u1) + s • (h1 • v1)) - (o2 + c • (h2 • u2) + d • (h2 • v2)) by module]) s2)
    (fun a ha b hb d hd => line_error n hn (fun s => f (a, b) (s, d)) κ hκ (o1 + a • (h1 • u1) + b • (h1 • v1) - (o2 + d • (h2 • v2))) (-(h2 • u2))
      (neg_ne_zero.2 (ne _ _ hh2 hu2)) δ (2 * eta) hδ0 (fun s hs => by
        have := dist (a, b) (s, d) ⟨ha.1, ha.2, hb.1, hb.2⟩ ⟨hs.1, hs.2, hd.1, hd.2⟩
        rw [show o1 + a • (h1 • u1) + b • (h1 • v1) - (o2 + d • (h2 • v2)) + s • (-(h2 • u2)) = (o1 + a • (h1 • u1) + b • (h1 • v1)) - (o2 + s • (h2 • u2) + d • (h2 • v2)) by module]
        exact this) (fun s hs => by
        rw [hf (a, b) (s, d) ⟨ha.1, ha.2, hb.1, hb.2⟩ ⟨hs.1, hs.2, hd.1, hd.2⟩,
          show o1 + a • (h1 • u1) + b • (h1 • v1) - (o2 + d • (h2 • v2)) + s • (-(h2 • u2)) = (o1 + a • (h1 • u1) + b • (h1 • v1)) - (o2 + s • (h2 • u2) + d • (h2 • v2)) by module])
      (by rw [norm_neg]; exact s3))
    (fun a ha b hb c hc => line_error n hn (fun s => f (a, b) (c, s)) κ hκ (o1 + a • (h1 • u1) + b • (h1 • v1) - (o2 + c • (h2 • u2))) (-(h2 • v2))
      (neg_ne_zero.2 (ne _ _ hh2 hv2)) δ (2 * eta) hδ0 (fun s hs => by
        have := dist (a, b) (c, s) ⟨ha.1, ha.2, hb.1, hb.2⟩ ⟨hc.1, hc.2, hs.1, hs.2⟩
        rw [show o1 + a • (h1 • u1) + b • (h1 • v1) - (o2 + c • (h2 • u2)) + s • (-(h2 • v2)) = (o1 + a • (h1 • u1) + b • (h1 • v1)) - (o2 + c • (h2 • u2) + s • (h2 • v2)) by module]
        exact this) (fun s hs => by
        rw [hf (a, b) (c, s) ⟨ha.1, ha.2, hb.1, hb.2⟩ ⟨hc.1, hc.2, hs.1, hs.2⟩,
          show o1 + a • (h1 • u1) + b • (h1 • v1) - (o2 + c • (h2 • u2)) + s • (-(h2 • v2)) = (o1 + a • (h1 • u1) + b • (h1 • v1)) - (o2 + c • (h2 • u2) + s • (h2 • v2)) by module])
      (by rw [norm_neg]; exact s4))
    y z ⟨hy.1, hy.2.1⟩ ⟨hy.2.2.1, hy.2.2.2⟩ ⟨hz.1, hz.2.1⟩ ⟨hz.2.2.1, hz.2.2.2⟩
  rw [e4] at err
  exact err

theorem shape_abs (P i : Nat) (hi : i < (P + 1) * (P + 1)) (s : ℝ × ℝ) (hs : ClosedSquare s) : |shape P i s| ≤ 1 := by
  have one : ∀ k ≤ P, ∀ x : ℝ, 0 ≤ x → x ≤ 1 → bern P k x ≤ 1 := by
    intro k hk x h0 h1
    rw [← Basis.sum_bern P x]
    exact single_le_sum (f := fun i => bern P i x) (fun i _ => bern_nonneg P i x h0 h1) (mem_range.2 (by omega))
  unfold shape
  have h1 := bern_nonneg P (i % (P + 1)) s.1 hs.1 hs.2.1
  have h2 := bern_nonneg P (i / (P + 1)) s.2 hs.2.2.1 hs.2.2.2
  rw [abs_of_nonneg (mul_nonneg h1 h2)]
  exact mul_le_one₀ (one _ (by have := Nat.mod_lt i (show 0 < P + 1 by omega); omega) _ hs.1 hs.2.1) h2
    (one _ (by have := Nat.div_lt_of_lt_mul hi; omega) _ hs.2.2.1 hs.2.2.2)

theorem absQuad_le (Q : Quad1 ℝ) (hw : ∀ q < Q.size, 0 ≤ Q.w q) (hs : ∑ q ∈ range Q.size, Q.w q = 1) (g : ℝ × ℝ → ℝ)
    (hg : ∀ q < Q.size, ∀ q' < Q.size, |g (Q.xi q, Q.xi q')| ≤ 1) : 0 ≤ absQuad Q g ∧ absQuad Q g ≤ 1 := by
  unfold absQuad
  refine ⟨sum_nonneg fun q _ => sum_nonneg fun q' _ => by positivity, ?_⟩
  calc ∑ q ∈ range Q.size, ∑ q' ∈ range Q.size, |Q.w q * Q.w q'| * |g (Q.xi q, Q.xi q')| ≤
      ∑ q ∈ range Q.size, ∑ q' ∈ range Q.size, Q.w q * Q.w q' := by
        refine sum_le_sum fun q hq => sum_le_sum fun q' hq' => ?_
        have := mul_nonneg (hw q (mem_range.1 hq)) (hw q' (mem_range.1 hq'))
        rw [abs_of_nonneg this]
        exact mul_le_of_le_one_right this (hg q (mem_range.1 hq) q' (mem_range.1 hq'))
    _ = 1 := by simp only [← mul_sum, hs, mul_one]

end Compress

/-- C87: on flat patches the bounding ball of a cluster is the smallest one: its centre is the centre of the parallelogram and its radius is
half of the longer diagonal. -/
theorem C87_balls (near : V3 → V3 → Bool) (corner : Nat → Nat → V3) (P M : Nat) (hP : 0 < P) (hc : ConformingPatches near corner P)
    (geo : Nat → ℝ × ℝ → V3 × V3 × V3) (S : ℝ) (hflat : FlatPatches P geo S) (hw : Watertight corner P fun p s => (geo p s).1)
    (t : Mesh.Tree ℝ) (ht : initElementTree near corner P M = some t) (junk : Nat → V3) (B0 B : Addr → Ball V3)
    (hB : computeElementEnclosings t (fun p s => (geo p s).1) junk B0 = some B) (l : Nat) (hl : l ≤ M) (a : Addr) (ha : IsNode P l a) :
    let f := fun j => (SuperSpace.map2surface t geo a (cornerPoint j : ℝ × ℝ) 1).f
    (B a).mid = (SuperSpace.map2surface t geo a (1 / 2, 1 / 2) 1).f ∧ (B a).rad = max ‖f 0 - f 2‖ ‖f 1 - f 3‖ / 2 := by
  suffices H : ∀ k l, l + k = M → ∀ a, IsNode P l a →
      (B a).mid = (SuperSpace.map2surface t geo a (1 / 2, 1 / 2) 1).f ∧
      (B a).rad = max ‖(SuperSpace.map2surface t geo a (cornerPoint 0 : ℝ × ℝ) 1).f - (SuperSpace.map2surface t geo a (cornerPoint 2 : ℝ × ℝ) 1).f‖
        ‖(SuperSpace.map2surface t geo a (cornerPoint 1 : ℝ × ℝ) 1).f - (SuperSpace.map2surface t geo a (cornerPoint 3 : ℝ × ℝ) 1).f‖ / 2 by
    exact H (M - l) l (by omega) a ha
  have cs : ∀ j < 4, ClosedSquare (cornerPoint j : ℝ × ℝ) := by
    intro j hj
    have : j = 0 ∨ j = 1 ∨ j = 2 ∨ j = 3 := by omega
    rcases this with rfl | rfl | rfl | rfl <;> simp [ClosedSquare, cornerPoint, edgePoint]
  have hs : ClosedSquare (1 / 2, 1 / 2) := by norm_num [ClosedSquare]
  have c0 : (cornerPoint 0 : ℝ × ℝ) = (0, 0) := by simp [cornerPoint, edgePoint]
  have c1 : (cornerPoint 1 : ℝ × ℝ) = (1, 0) := by simp [cornerPoint, edgePoint]
  have c2 : (cornerPoint 2 : ℝ × ℝ) = (1, 1) := by simp [cornerPoint, edgePoint]
  have c3 : (cornerPoint 3 : ℝ × ℝ) = (0, 1) := by simp [cornerPoint, edgePoint]
  have z0 := cs 0 (by norm_num)
  have z1 := cs 1 (by norm_num)
  have z2 := cs 2 (by norm_num)
  have z3 := cs 3 (by norm_num)
  rw [c0] at z0
  rw [c1] at z1
  rw [c2] at z2
  rw [c3] at z3
  simp only [c0, c1, c2, c3]
  have diag : ∀ (o u v : V3), ‖(o + (0 : ℝ) • u + (0 : ℝ) • v) - (o + (1 : ℝ) • u + (1 : ℝ) • v)‖ = ‖u + v‖ ∧
      ‖(o + (1 : ℝ) • u + (0 : ℝ) • v) - (o + (0 : ℝ) • u + (1 : ℝ) • v)‖ = ‖u - v‖ := by
    intro o u v
    constructor
    · rw [← norm_neg]; congr 1; module
    · congr 1; module
  intro k
  induction k with
  | zero =>
    intro l hl a ha
    obtain rfl : l = M := by omega
    obtain ⟨o, u, v, -, -, -, hp⟩ := flat_point near corner P l hP t ht geo S hflat l le_rfl a ha
    have eq := (BallEq.equations near corner P l hP hc _ hw t ht junk B0 B hB l le_rfl a ha).1 rfl
    simp only [c0, c1, c2, c3] at eq
    have e : ∀ y, ClosedSquare y → (geo (t.patch a) ((t.llc a).1 + getH t a * y.1, (t.llc a).2 + getH t a * y.2)).1 =
        o + y.1 • (getH t a • u) + y.2 • (getH t a • v) := fun y hy => by
      have := congrArg SurfPt.f (hp y hy 1)
      simpa only [SuperSpace.map2surface] using this
    have e0 := e _ z0
    have e1 := e _ z1
    have e2 := e _ z2
    have e3 := e _ z3
    simp only at e0 e1 e2 e3
    rw [e0, e1, e2, e3, BallEq.four _ _ _ _ _ le_rfl (by module)] at eq
    rw [← Option.some.inj eq, hp _ hs, hp _ z0, hp _ z1, hp _ z2, hp _ z3]
    simp only
    exact ⟨by module, by rw [zero_add]⟩
  | succ k ih =>
    intro l hl a ha
    have hl' : l < M := by omega
    obtain ⟨t', k1, k2, -⟩ := tree_facts (K := ℝ) near corner P M hP
    obtain rfl : t = t' := Option.some.inj (ht.symm.trans k1)
    obtain ⟨o, u, v, -, -, -, hp⟩ := flat_point near corner P M hP t ht geo S hflat l hl'.le a ha
    have son_eq : ∀ i < 4, (B (son a i)).mid = o + (((if i = 1 ∨ i = 2 then 1 else 0 : ℝ) + 1 / 2) / 2) • (getH t a • u) +
          (((if i = 2 ∨ i = 3 then 1 else 0 : ℝ) + 1 / 2) / 2) • (getH t a • v) ∧
        (B (son a i)).rad = max ‖getH t a • u + getH t a • v‖ ‖getH t a • u - getH t a • v‖ / 2 / 2 := by
      intro i hi
      have hs' : IsNode P (l + 1) (son a i) := ⟨ha.1, by simp [son, ha.2.1], by
        intro x hx
        simp only [son, List.mem_cons] at hx
        rcases hx with rfl | hx
        · exact hi
        · exact ha.2.2 x hx⟩
      obtain ⟨-, v2, v3, v4⟩ := k2 l hl'.le a (mem_leaves.2 ha)
      obtain ⟨-, w2, w3, w4⟩ := k2 (l + 1) hl' (son a i) (mem_leaves.2 hs')
      have pt : ∀ y, ClosedSquare y → (SuperSpace.map2surface t geo (son a i) y 1).f =
          o + (((if i = 1 ∨ i = 2 then 1 else 0 : ℝ) + y.1) / 2) • (getH t a • u) + (((if i = 2 ∨ i = 3 then 1 else 0 : ℝ) + y.2) / 2) • (getH t a • v) := by
        intro y hy
        have hy' : ClosedSquare (((if i = 1 ∨ i = 2 then 1 else 0 : ℝ) + y.1) / 2, ((if i = 2 ∨ i = 3 then 1 else 0 : ℝ) + y.2) / 2) := by
          obtain ⟨y0, y1, y2, y3⟩ := hy
          refine ⟨?_, ?_, ?_, ?_⟩ <;> simp only <;> split_ifs <;> linarith
        have e := congrArg SurfPt.f (hp _ hy' 1)
        simp only at e
        rw [← e]
        simp only [SuperSpace.map2surface, v3, w3, getH, v2, w2, v4, w4]
        simp only [son, posX, posY, List.length_cons, pow_succ]
        congr 3
        · split_ifs <;> · push_cast; field_simp; ring
        · split_ifs <;> · push_cast; field_simp; ring
      obtain ⟨h1, h2⟩ := ih (l + 1) (by omega) (son a i) hs'
      refine ⟨by rw [h1, pt _ hs], ?_⟩
      rw [h2, pt _ z0, pt _ z1, pt _ z2, pt _ z3]
      simp only
      set U := getH t a • u
      set V := getH t a • v
      generalize (if i = 1 ∨ i = 2 then (1 : ℝ) else 0) = c
      generalize (if i = 2 ∨ i = 3 then (1 : ℝ) else 0) = d
      have f1 : o + ((c + 0) / 2) • U + ((d + 0) / 2) • V - (o + ((c + 1) / 2) • U + ((d + 1) / 2) • V) = (-(1 / 2) : ℝ) • (U + V) := by module
      have f2 : o + ((c + 1) / 2) • U + ((d + 0) / 2) • V - (o + ((c + 0) / 2) • U + ((d + 1) / 2) • V) = (1 / 2 : ℝ) • (U - V) := by module
      rw [f1, f2, norm_smul, norm_smul, norm_neg, ← mul_max_of_nonneg _ _ (norm_nonneg _)]
      norm_num
      ring
    have eq := (BallEq.equations near corner P M hP hc _ hw t ht junk B0 B hB l hl'.le a ha).2 hl'
    set U := getH t a • u with hU
    set V := getH t a • v with hV
    have mk : ∀ (b : Ball V3) (m : V3) (r : ℝ), b.mid = m → b.rad = r → b = ⟨m, r⟩ := fun b m r h1 h2 => by cases b; simp_all
    have s0 := mk _ (o + (1 / 4 : ℝ) • U + (1 / 4 : ℝ) • V) _ ((son_eq 0 (by norm_num)).1.trans (by norm_num)) (son_eq 0 (by norm_num)).2
    have s1 := mk _ (o + (3 / 4 : ℝ) • U + (1 / 4 : ℝ) • V) _ ((son_eq 1 (by norm_num)).1.trans (by norm_num)) (son_eq 1 (by norm_num)).2
    have s2 := mk _ (o + (3 / 4 : ℝ) • U + (3 / 4 : ℝ) • V) _ ((son_eq 2 (by norm_num)).1.trans (by norm_num)) (son_eq 2 (by norm_num)).2
    have s3 := mk _ (o + (1 / 4 : ℝ) • U + (3 / 4 : ℝ) • V) _ ((son_eq 3 (by norm_num)).1.trans (by norm_num)) (son_eq 3 (by norm_num)).2
    rw [s0, s1, s2, s3, BallEq.four _ _ _ _ _ (by positivity) (by module)] at eq
    rw [← Option.some.inj eq, hp _ hs, hp _ z0, hp _ z1, hp _ z2, hp _ z3]
    simp only
    rw [(diag o _ _).1, (diag o _ _).2]
    refine ⟨by module, ?_⟩
    have f1 : o + (1 / 4 : ℝ) • U + (1 / 4 : ℝ) • V - (o + (3 / 4 : ℝ) • U + (3 / 4 : ℝ) • V) = (-(1 / 2) : ℝ) • (U + V) := by module
    have f2 : o + (3 / 4 : ℝ) • U + (1 / 4 : ℝ) • V - (o + (1 / 4 : ℝ) • U + (3 / 4 : ℝ) • V) = (1 / 2 : ℝ) • (U - V) := by module
    rw [f1, f2, norm_smul, norm_smul, norm_neg, ← mul_max_of_nonneg _ _ (norm_nonneg _)]
    norm_num
    ring

/-- C87: the single layer operator of the Laplace equation on a surface of flat patches (parallelograms) with sides of length at most `S`:
for two clusters that satisfy the admissibility condition with the balls computed by the code, the far field entry with `n` interpolation
points per direction differs from the quadrature of the integrand by at most
`S³ η / π / 2 ^ M * (n + 1) (1 + 2n + 4n² + 8n³) * (η / 2) ^ n`. -/
theorem C87_laplace (near : V3 → V3 → Bool) (corner : Nat → Nat → V3) (P M : Nat) (hP : 0 < P) (hc : ConformingPatches near corner P)
    (geo : Nat → ℝ × ℝ → V3 × V3 × V3) (hgeo : RegularPatches P geo) (S : ℝ) (hflat : FlatPatches P geo S)
    (hw : Watertight corner P fun p s => (geo p s).1)
    (t : Mesh.Tree ℝ) (ht : initElementTree near corner P M = some t) (junk : Nat → V3) (B0 B : Addr → Ball V3)
    (hB : computeElementEnclosings t (fun p s => (geo p s).1) junk B0 = some B) (eta : ℝ) (he : 0 < eta)
    (Q : Quad1 ℝ) (hQ : ∀ q < Q.size, 0 ≤ Q.xi q ∧ Q.xi q ≤ 1) (hQw : ∀ q < Q.size, 0 ≤ Q.w q) (hQs : ∑ q ∈ range Q.size, Q.w q = 1)
    (n : Nat) (hn : 0 < n) (p : Nat) (jr jk : Nat → ℝ) (l : Nat) (hl : l ≤ M) (c1 c2 : Addr) (h1 : IsNode P l c1) (h2 : IsNode P l c2)
    (hadm : max (B c1).rad (B c2).rad < eta * (‖(B c1).mid - (B c2).mid‖ - (B c1).rad - (B c2).rad))
    (L1 L2 : List Addr) (hL1 : clusterElements t c1 = some L1) (hL2 : clusterElements t c2 = some L2) (a b : Addr) (ha : a ∈ L1) (hb : b ∈ L2)
    (r c : Nat) (hr : r < (p + 1) * (p + 1)) (hc' : c < (p + 1) * (p + 1)) :
    |farEntry t Operator.laplaceSL (SuperSpace.map2surface t geo) Q (chebychevRoots n) n (valueT p M) c1 c2 a b 0 0 r c -
      directEntry t Operator.laplaceSL (SuperSpace.map2surface t geo) Q p M jr jk a b r c| ≤
      S ^ 3 * eta / Real.pi / 2 ^ M * ((n + 1) * (1 + 2 * n + (2 * n) ^ 2 + (2 * n) ^ 3) * (eta / 2) ^ n) := by
  have fb := flat_ball near corner P M hP hc geo S hflat hw t ht junk B0 B hB l hl
  obtain ⟨o1, u1, v1, S1, S2, g1, p1⟩ := flat_point near corner P M hP t ht geo S hflat l hl c1 h1
  obtain ⟨o2, u2, v2, S3, S4, g2, p2⟩ := flat_point near corner P M hP t ht geo S hflat l hl c2 h2
  obtain ⟨R1, f1⟩ := fb c1 h1
  obtain ⟨R2, f2⟩ := fb c2 h2
  have z0 : ClosedSquare (0, 0) := by norm_num [ClosedSquare]
  have reg1 := node_regular near corner P M hP t ht geo hgeo l hl c1 h1 (0, 0) z0 1
  have reg2 := node_regular near corner P M hP t ht geo hgeo l hl c2 h2 (0, 0) z0 1
  rw [p1 _ z0] at reg1
  rw [p2 _ z0] at reg2
  have nz : ∀ u v : V3, cross3 u v ≠ 0 → u ≠ 0 ∧ v ≠ 0 := by
    intro u v h
    have k := cross_le u v
    constructor
    · rintro rfl; rw [norm_zero, zero_mul] at k; exact h (norm_le_zero_iff.1 k)
    · rintro rfl; rw [norm_zero, mul_zero] at k; exact h (norm_le_zero_iff.1 k)
  obtain ⟨hu1, hv1⟩ := nz u1 v1 reg1
  obtain ⟨hu2, hv2⟩ := nz u2 v2 reg2
  have hh : (0 : ℝ) < 1 / 2 ^ l := by positivity
  set κ := 1 / 4 / Real.pi * (‖cross3 u1 v1‖ * ‖cross3 u2 v2‖) with hκ
  have hκ0 : 0 ≤ κ := by rw [hκ]; positivity
  have hf : ∀ y z, ClosedSquare y → ClosedSquare z → Operator.laplaceSL.fmm (SuperSpace.map2surface t geo c1 y 1) (SuperSpace.map2surface t geo c2 z 1) 0 0 =
      κ * (1 / ‖(o1 + y.1 • (getH t c1 • u1) + y.2 • (getH t c1 • v1)) - (o2 + z.1 • (getH t c2 • u2) + z.2 • (getH t c2 • v2))‖) := by
    intro y z hy hz
    rw [p1 y hy, p2 z hz, hκ]
    simp only [Operator.laplaceSL, Kernel.laplace]
    ring
  have ker := fun y z hy hz => flat_kernel n hn o1 u1 v1 o2 u2 v2 (B c1).mid (B c2).mid (B c1).rad (B c2).rad eta (getH t c1) (getH t c2)
    (by rw [g1]; exact hh) (by rw [g2]; exact hh) he hu1 hv1 hu2 hv2 R1 hadm
    (fun y hy => by have := f1 y hy; rw [p1 y hy] at this; exact this)
    (fun y hy => by have := f2 y hy; rw [p2 y hy] at this; exact this)
    (fun y z => Operator.laplaceSL.fmm (SuperSpace.map2surface t geo c1 y 1) (SuperSpace.map2surface t geo c2 z 1) 0 0) κ hκ0 hf y z hy hz
  set δ := ‖(B c1).mid - (B c2).mid‖ - (B c1).rad - (B c2).rad with hδ
  obtain ⟨hδ0, hside, -⟩ := ker (0, 0) (0, 0) z0 z0
  have entry := C87_entry near corner P M hP t ht geo hgeo Operator.laplaceSL valueT (C52_scalar 0).1 (C63_position_only 0).1 Q hQ (chebychevRoots n) n p
    jr jk l hl c1 c2 h1 h2 L1 L2 hL1 hL2 a b ha hb (growth n * (2 * κ * (n + 1) / δ * (eta / 2) ^ n))
    (fun y z hy hz _ _ _ _ => (ker y z hy hz).2.2) 0 0 (by simp [Operator.laplaceSL]) (by simp [Operator.laplaceSL]) r c hr hc'
  obtain ⟨n1, -, -⟩ := inCluster_square near corner P M hP t ht l hl c1 h1 L1 hL1 a ha
  obtain ⟨n2, -, -⟩ := inCluster_square near corner P M hP t ht l hl c2 h2 L2 hL2 b hb
  obtain ⟨t', k1, k2, -⟩ := tree_facts (K := ℝ) near corner P M hP
  obtain rfl : t = t' := Option.some.inj (ht.symm.trans k1)
  have ga : ∀ a, IsNode P M a → getH t a = 1 / 2 ^ M := fun a ha => by
    obtain ⟨-, w2, -⟩ := k2 M le_rfl a (mem_leaves.2 ha)
    unfold getH; rw [w2, ha.2.1]
  have hsq : ∀ q < Q.size, ∀ q' < Q.size, Spec.ClosedSquare (Q.xi q, Q.xi q') := fun q hq q' hq' =>
    ⟨(hQ q hq).1, (hQ q hq).2, (hQ q' hq').1, (hQ q' hq').2⟩
  have aq : ∀ r < (p + 1) * (p + 1), ∀ α, 0 ≤ absQuad Q (valueT p M 0 α r) ∧ absQuad Q (valueT p M 0 α r) ≤ 1 := fun r hr α =>
    absQuad_le Q hQw hQs _ fun q hq q' hq' => shape_abs p r hr _ (hsq q hq q' hq')
  have nc : Operator.laplaceSL.nc = 1 := rfl
  rw [ga a n1, ga b n2, nc, sum_range_one, sum_range_one, zero_mul, zero_add, zero_add, Real.norm_eq_abs] at entry
  refine entry.trans ?_
  have q1 : absQuad Q (valueT p M 0 0 r) * absQuad Q (valueT p M 0 0 c) ≤ 1 := mul_le_one₀ (aq r hr 0).2 (aq c hc' 0).1 (aq c hc' 0).2
  have hE0 : 0 ≤ growth n * (2 * κ * (n + 1) / δ * (eta / 2) ^ n) := mul_nonneg (growth_nonneg n) (by positivity)
  have hS : 0 ≤ S := (norm_nonneg u1).trans S1
  have hpi := Real.pi_pos
  -- the constants
  have kd : κ / δ ≤ S ^ 3 * eta / (2 * Real.pi) * 2 ^ M := by
    have hu : 0 < ‖u1‖ := norm_pos_iff.2 hu1
    have c1' : ‖cross3 u1 v1‖ ≤ ‖u1‖ * S := (cross_le u1 v1).trans (mul_le_mul_of_nonneg_left S2 hu.le)
    have c2' : ‖cross3 u2 v2‖ ≤ S * S := (cross_le u2 v2).trans (mul_le_mul S3 S4 (norm_nonneg _) hS)
    have c3 : ‖u1‖ ≤ 2 * eta * δ * 2 ^ M := by
      rw [g1] at hside
      have hlM : (2 : ℝ) ^ l ≤ 2 ^ M := pow_le_pow_right₀ (by norm_num) hl
      have : ‖u1‖ ≤ 2 * eta * δ * 2 ^ l := by
        rw [one_div, inv_mul_le_iff₀ (by positivity)] at hside
        linarith
      refine this.trans (mul_le_mul_of_nonneg_left hlM (by positivity))
    rw [div_le_iff₀ hδ0, hκ]
    calc 1 / 4 / Real.pi * (‖cross3 u1 v1‖ * ‖cross3 u2 v2‖) ≤ 1 / 4 / Real.pi * (‖u1‖ * S * (S * S)) := by
          refine mul_le_mul_of_nonneg_left (mul_le_mul c1' c2' (norm_nonneg _) (by positivity)) (by positivity)
      _ ≤ 1 / 4 / Real.pi * ((2 * eta * δ * 2 ^ M) * S * (S * S)) := by gcongr
      _ = _ := by field_simp; ring
  calc growth n * (2 * κ * (n + 1) / δ * (eta / 2) ^ n) * (1 / 2 ^ M * (1 / 2 ^ M) * (absQuad Q (valueT p M 0 0 r) * absQuad Q (valueT p M 0 0 c)))
      ≤ growth n * (2 * κ * (n + 1) / δ * (eta / 2) ^ n) * (1 / 2 ^ M * (1 / 2 ^ M) * 1) :=
        mul_le_mul_of_nonneg_left (mul_le_mul_of_nonneg_left q1 (by positivity)) hE0
    _ = growth n * (2 * (κ / δ) * (n + 1) * (eta / 2) ^ n) * (1 / 2 ^ M * (1 / 2 ^ M)) := by ring
    _ ≤ growth n * (2 * (S ^ 3 * eta / (2 * Real.pi) * 2 ^ M) * (n + 1) * (eta / 2) ^ n) * (1 / 2 ^ M * (1 / 2 ^ M)) := by
        have := growth_nonneg n
        gcongr
    _ = _ := by unfold growth; field_simp

/-- C87: for an admissibility parameter below two the entries of the compressed blocks converge to the quadrature of the integrand, uniformly in
the blocks, as the number of interpolation points grows; the default of the code is `1.6`. -/
theorem C87_laplace_convergence (S eta : ℝ) (M : Nat) (h0 : 0 ≤ eta) (h2 : eta < 2) (ε : ℝ) (hε : 0 < ε) :
    ∃ n0, ∀ n : Nat, n0 ≤ n → 0 < n ∧
      S ^ 3 * eta / Real.pi / 2 ^ M * ((n + 1) * (1 + 2 * n + (2 * n) ^ 2 + (2 * n) ^ 3) * (eta / 2) ^ n) ≤ ε := by
  have h := (growth_tendsto (eta / 2) (by positivity) (by linarith) 1).const_mul (S ^ 3 * eta / Real.pi / 2 ^ M)
  rw [mul_zero] at h
  obtain ⟨n0, h3⟩ := Filter.eventually_atTop.1 ((h.eventually_lt_const hε).and (Filter.eventually_ge_atTop 1))
  refine ⟨n0, fun n hn => ⟨(h3 n hn).2, le_trans (le_of_eq ?_) (h3 n hn).1.le⟩⟩
  unfold growth
  rw [pow_one]

/-- C87: the compressed matrix of the single layer operator of the Laplace equation on flat patches.  For every order of the assembly tasks and
all schedules the product with the assembled H2-matrix is `res + alpha * Tᵀ A T * rhs`, where every entry of `A` is the entry of the dense
assembly, or differs from the quadrature of the integrand by at most `S³ η / π / 2 ^ M * (n + 1) (1 + 2n + 4n² + 8n³) * (η / 2) ^ n`. -/
theorem C87_matrix (near : V3 → V3 → Bool) (corner : Nat → Nat → V3) (P M : Nat) (hP : 0 < P) (hc : ConformingPatches near corner P)
    (geo : Nat → ℝ × ℝ → V3 × V3 × V3) (hgeo : RegularPatches P geo) (S : ℝ) (hflat : FlatPatches P geo S)
    (hw : Watertight corner P fun p s => (geo p s).1)
    (t : Mesh.Tree ℝ) (ht : initElementTree near corner P M = some t) (junkB : Nat → V3) (B0 B : Addr → Ball V3)
    (hB : computeElementEnclosings t (fun p s => (geo p s).1) junkB B0 = some B) (eta : ℝ) (he : 0 < eta) (minLevel : Int) (hm : 0 ≤ minLevel)
    (p : Nat) (trans : EMat ℝ) (htr : trans.rows = (p + 1) * (p + 1) * t.nElements)
    (pair : Addr → Addr → Option (Nat → Nat → ℝ)) (v : Addr → Addr → Nat → Nat → ℝ)
    (hv : ∀ a b, IsNode P M a → IsNode P M b → pair a b = some (v a b)) (E : MomentEnv) (n : Nat) (hn : 0 < n)
    (hx : E.pts n = chebychevRoots n) (hQ : ∀ q < (E.GL (gaussIndex n p)).size, 0 ≤ (E.GL (gaussIndex n p)).xi q ∧ (E.GL (gaussIndex n p)).xi q ≤ 1)
    (hQw : ∀ q < (E.GL (gaussIndex n p)).size, 0 ≤ (E.GL (gaussIndex n p)).w q)
    (hQs : ∑ q ∈ range (E.GL (gaussIndex n p)).size, (E.GL (gaussIndex n p)).w q = 1) (jr jk : Nat → ℝ) :
    ∃ A : Nat → Nat → ℝ,
      (∀ a b, IsNode P M a → IsNode P M b → ∀ r < (p + 1) * (p + 1), ∀ c < (p + 1) * (p + 1),
        let entry := A ((p + 1) * (p + 1) * t.id a + r) ((p + 1) * (p + 1) * t.id b + c)
        entry = v a b r c ∨
        |entry - directEntry t Operator.laplaceSL (SuperSpace.map2surface t geo) (E.GL (gaussIndex n p)) p M jr jk a b r c| ≤
          S ^ 3 * eta / Real.pi / 2 ^ M * ((n + 1) * (1 + 2 * n + (2 * n) ^ 2 + (2 * n) ^ 3) * (eta / 2) ^ n)) ∧
      ∀ (junk : Nat → Nat → ℝ) (junkE junkT : Nat → Nat → ℝ) (M0 : LeafMem ℝ) (order : List Nat),
        order.Perm (List.range (leafPointers (initBlockClusterTree t B eta minLevel)).length) →
        ∃ H, initH2Matrix junk junkE junkT M0 Operator.laplaceSL t B eta minLevel p trans (SuperSpace.map2surface t geo) pair E
          (fun E p cl r np => compute2DMoment E 1 p cl r np) n order = some H ∧
        ∀ (junk : Nat → Nat → ℝ) (S : Schedules H) (rhs res : EMat ℝ) (alpha : ℝ),
          rhs.rows = trans.cols → res.rows = trans.cols → res.cols = rhs.cols →
          ∃ res', run junk H S rhs res alpha = some res' ∧ res'.rows = res.rows ∧ res'.cols = res.cols ∧
          ∀ i < res.rows, ∀ c < res.cols, res'.at' i c = res.at' i c + alpha * ∑ r ∈ range trans.rows,
            ∑ k ∈ range trans.rows, ∑ d ∈ range trans.cols, trans.at' r i * A r k * trans.at' k d * rhs.at' d c := by
  have fb := flat_ball near corner P M hP hc geo S hflat hw t ht junkB B0 B hB
  obtain ⟨A, h1, h2⟩ := C63_product near corner P M hP t ht Operator.laplaceSL (by norm_num [Operator.laplaceSL]) (by norm_num [Operator.laplaceSL]) valueT
    (fun E p cl r np => compute2DMoment E 1 p cl r np) (C42_operators.1 1) B (fun l hl a ha => (fb l hl a ha).1) eta minLevel hm p trans
    (by rw [htr]; simp [Operator.laplaceSL]) (SuperSpace.map2surface t geo) pair v hv E n hn (by rw [hx]; exact (cheb_facts n).1)
  refine ⟨A, fun a b ha hb r hr c hc' => ?_, h2⟩
  have := h1 a b ha hb 0 (by norm_num [Operator.laplaceSL]) 0 (by norm_num [Operator.laplaceSL]) r hr c hc'
  simp only [zero_mul, zero_add] at this ⊢
  rcases this with h | ⟨l, hl, c1, c2, i1, i2, ⟨L1, hL1, ha1⟩, ⟨L2, hL2, hb2⟩, hadm, he'⟩
  · exact Or.inl h
  · right
    rw [he', hx]
    exact C87_laplace near corner P M hP hc geo hgeo S hflat hw t ht junkB B0 B hB eta he _ hQ hQw hQs n hn p jr jk l hl c1 c2 i1 i2 hadm L1 L2 hL1 hL2
      a b ha1 hb2 r c hr hc'

/-! ### the hypotheses are met -/

namespace Compress

theorem flatSquare_flat : FlatPatches 1 flatSquare 1 := by
  intro p _
  refine ⟨0, WithLp.toLp 2 ![1, 0, 0], WithLp.toLp 2 ![0, 1, 0], ?_, ?_, fun s _ => ?_⟩
  · rw [EuclideanSpace.norm_eq]; simp [Fin.sum_univ_three]
  · rw [EuclideanSpace.norm_eq]; simp [Fin.sum_univ_three]
  · unfold flatSquare
    congr 1
    ext i
    fin_cases i <;> simp

theorem flatSquare_water : Watertight (fun q j => (flatSquare q (cornerPoint j)).1) 1 (fun q x => (flatSquare q x).1) :=
  ⟨fun _ _ _ _ => rfl, fun p hp q hq hpq => by omega, fun p hp q hq hpq => by omega⟩

theorem flatSquare_reg : RegularPatches 1 flatSquare := by
  intro p _ s _ h
  have := congrFun (congrArg WithLp.ofLp h) 2
  simp [flatSquare, cross3] at this

/-- Opposite corners of the mesh of the unit square with sixteen elements are admissible with the default parameter. -/
theorem example_admissible : ∃ (t : Mesh.Tree ℝ) (B : Addr → Ball V3),
    initElementTree (nearBy (1 / 1000)) (fun q j => (flatSquare q (cornerPoint j)).1) 1 2 = some t ∧
    computeElementEnclosings t (fun q x => (flatSquare q x).1) (fun _ => 0) (fun _ => ⟨0, 0⟩) = some B ∧
    IsNode 1 2 (0, [0, 0]) ∧ IsNode 1 2 (0, [2, 2]) ∧
    max (B (0, [0, 0])).rad (B (0, [2, 2])).rad <
      1.6 * (‖(B (0, [0, 0])).mid - (B (0, [2, 2])).mid‖ - (B (0, [0, 0])).rad - (B (0, [2, 2])).rad) := by
  obtain ⟨t, h1, B, hB, -⟩ := C24_balls (nearBy (1 / 1000)) (fun q j => (flatSquare q (cornerPoint j)).1) 1 2 (by norm_num) flatSquare_conforming
    (fun q x => (flatSquare q x).1) flatSquare_water (fun _ => 0) (fun _ => ⟨0, 0⟩)
  have i1 : IsNode 1 2 (0, [0, 0]) := ⟨by norm_num, rfl, by simp⟩
  have i2 : IsNode 1 2 (0, [2, 2]) := ⟨by norm_num, rfl, by simp⟩
  refine ⟨t, B, h1, hB, i1, i2, ?_⟩
  have b1 := C87_balls _ _ 1 2 (by norm_num) flatSquare_conforming flatSquare 1 flatSquare_flat flatSquare_water t h1 _ _ B hB 2 le_rfl _ i1
  have b2 := C87_balls _ _ 1 2 (by norm_num) flatSquare_conforming flatSquare 1 flatSquare_flat flatSquare_water t h1 _ _ B hB 2 le_rfl _ i2
  obtain ⟨t', k1, k2, -⟩ := tree_facts (K := ℝ) (nearBy (1 / 1000)) (fun q j => (flatSquare q (cornerPoint j)).1) 1 2 (by norm_num)
  obtain rfl : t = t' := Option.some.inj (h1.symm.trans k1)
  obtain ⟨-, v2, v3, v4⟩ := k2 2 le_rfl _ (mem_leaves.2 i1)
  obtain ⟨-, w2, w3, w4⟩ := k2 2 le_rfl _ (mem_leaves.2 i2)
  simp only [SuperSpace.map2surface, getH, v2, v3, v4, w2, w3, w4, posX, posY, cornerPoint, edgePoint, List.length_cons, List.length_nil] at b1 b2
  rw [b1.1, b1.2, b2.1, b2.2]
  simp only [flatSquare, EuclideanSpace.norm_eq, Fin.sum_univ_three]
  clear b1 b2
  have h2 : ∀ a b c : ℝ, (![a, b, c] : Fin 3 → ℝ) 2 = c := fun _ _ _ => rfl
  simp only [h2, PiLp.sub_apply]
  norm_num [-one_div, -Real.sqrt_div, -Real.sqrt_div', h2]
  have e : √(9 / 8 : ℝ) = 3 * √(1 / 8) := by
    rw [show (9 / 8 : ℝ) = 3 ^ 2 * (1 / 8) by norm_num, Real.sqrt_mul (by norm_num), Real.sqrt_sq (by norm_num)]
  have p : 0 < √(1 / 8 : ℝ) := Real.sqrt_pos.2 (by norm_num)
  linarith

end Compress

/-- The bound for this pair of elements, quadratic shape functions, the midpoint rule and six interpolation points. -/
example : ∃ (t : Mesh.Tree ℝ), initElementTree (nearBy (1 / 1000)) (fun q j => (flatSquare q (cornerPoint j)).1) 1 2 = some t ∧
    ∀ r < 9, ∀ c < 9,
    |farEntry t Operator.laplaceSL (SuperSpace.map2surface t flatSquare) ⟨1, fun _ => 1, fun _ => 1 / 2⟩ (chebychevRoots 6) 6 (valueT 2 2)
        (0, [0, 0]) (0, [2, 2]) (0, [0, 0]) (0, [2, 2]) 0 0 r c -
      directEntry t Operator.laplaceSL (SuperSpace.map2surface t flatSquare) ⟨1, fun _ => 1, fun _ => 1 / 2⟩ 2 2 (fun _ => 0) (fun _ => 0)
        (0, [0, 0]) (0, [2, 2]) r c| ≤
      1 ^ 3 * 1.6 / Real.pi / 2 ^ 2 * ((6 + 1) * (1 + 2 * 6 + (2 * 6) ^ 2 + (2 * 6) ^ 3) * (1.6 / 2) ^ 6) := by
  obtain ⟨t, B, h1, hB, i1, i2, hadm⟩ := example_admissible
  refine ⟨t, h1, fun r hr c hc => ?_⟩
  obtain ⟨t', e1, e2⟩ := C25_cluster_range (K := ℝ) (nearBy (1 / 1000)) (fun q j => (flatSquare q (cornerPoint j)).1) 1 2 (by norm_num)
  obtain rfl : t = t' := Option.some.inj (h1.symm.trans e1)
  obtain ⟨L1, u1, u2, -⟩ := e2 2 _ le_rfl i1
  obtain ⟨L2, v1, v2, -⟩ := e2 2 _ le_rfl i2
  have := C87_laplace _ _ 1 2 (by norm_num) flatSquare_conforming flatSquare flatSquare_reg 1 flatSquare_flat flatSquare_water t h1 _ _ B hB 1.6
    (by norm_num) ⟨1, fun _ => 1, fun _ => 1 / 2⟩ (fun _ _ => by norm_num) (fun _ _ => by norm_num) (by simp) 6 (by norm_num) 2 (fun _ => 0) (fun _ => 0) 2 le_rfl
    _ _ i1 i2 hadm L1 L2 u1 v1 (0, [0, 0]) (0, [2, 2]) ((u2 _).2 ⟨[], rfl, by simp, rfl⟩) ((v2 _).2 ⟨[], rfl, by simp, rfl⟩) r c hr hc
  exact_mod_cast this

/-- An analytic kernel: all derivatives of `exp (y₁ + y₂ + z₁ + z₂)` are bounded by `e⁴`, so its interpolants converge. -/
example : ∀ ε > 0, ∃ n0, ∀ n ≥ n0, ∀ y z : ℝ × ℝ, ClosedSquare y → ClosedSquare z →
    ‖interpolate (chebychevRoots n) n (fun y z : ℝ × ℝ => Real.exp (y.1 + y.2 + z.1 + z.2)) y z - Real.exp (y.1 + y.2 + z.1 + z.2)‖ ≤ ε := by
  intro ε hε
  refine C87_convergence (fun y z : ℝ × ℝ => Real.exp (y.1 + y.2 + z.1 + z.2)) (Real.exp 4) 1 (by norm_num) (by norm_num) ?_ ε hε
  intro n
  have key : ∀ c : ℝ, c ≤ 3 → DerivBound n (fun s => Real.exp (s + c)) (Real.exp 4 * n.factorial * 1 ^ n) := by
    intro c hc
    have cd : ContDiff ℝ n (fun s => Real.exp (s + c)) := Real.contDiff_exp.comp (contDiff_id.add contDiff_const)
    refine ⟨cd.contDiffOn, fun s hs => ?_⟩
    rw [iteratedDerivWithin_eq_iteratedDeriv (uniqueDiffOn_Icc (by norm_num)) cd.contDiffAt hs, iteratedDeriv_comp_add_const, iteratedDeriv_eq_iterate,
      Real.iter_deriv_exp, Real.norm_eq_abs, abs_of_pos (Real.exp_pos _), one_pow, mul_one]
    have h1 : Real.exp (s + c) ≤ Real.exp 4 := Real.exp_le_exp.2 (by linarith [hs.2])
    have h2 : (1 : ℝ) ≤ n.factorial := by exact_mod_cast Nat.factorial_pos n
    nlinarith [Real.exp_pos 4]
  intro y z hy hz
  obtain ⟨y0, y1, y2, y3⟩ := hy
  obtain ⟨w0, w1, w2, w3⟩ := hz
  refine ⟨?_, ?_, ?_, ?_⟩
  · have := key (y.2 + z.1 + z.2) (by linarith)
    simpa only [add_assoc] using this
  · have := key (y.1 + z.1 + z.2) (by linarith)
    simpa only [add_assoc, add_left_comm] using this
  · have := key (y.1 + y.2 + z.2) (by linarith)
    simpa only [add_assoc, add_left_comm] using this
  · have := key (y.1 + y.2 + z.1) (by linarith)
    simpa only [add_assoc, add_left_comm, add_comm] using this

end Bembel.Props
