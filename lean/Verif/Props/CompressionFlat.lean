import Verif.Props.Compression
import Verif.Lemmas.AnalyticLine
/-!
# C87: exponential accuracy of all operators on flat patches
-/

namespace Bembel.Props
open Finset Mesh H2 Spec Util BlockCluster

variable {R : Type} [RCLike R]

namespace Compress

/-- Interpolation of a function of the difference of two points of flat clusters, from the interpolation along lines. -/
theorem flat_interp (n : Nat) (o1 u1 v1 o2 u2 v2 m1 m2 : V3) (r1 r2 eta : ℝ) (h1 h2 : ℝ) (hh1 : 0 < h1) (hh2 : 0 < h2) (he : 0 < eta)
    (hu1 : u1 ≠ 0) (hv1 : v1 ≠ 0) (hu2 : u2 ≠ 0) (hv2 : v2 ≠ 0)
    (hr1 : 0 ≤ r1) (hadm : max r1 r2 < eta * (‖m1 - m2‖ - r1 - r2))
    (b1 : ∀ y : ℝ × ℝ, ClosedSquare y → ‖o1 + y.1 • (h1 • u1) + y.2 • (h1 • v1) - m1‖ ≤ r1)
    (b2 : ∀ y : ℝ × ℝ, ClosedSquare y → ‖o2 + y.1 • (h2 • u2) + y.2 • (h2 • v2) - m2‖ ≤ r2)
    (k : V3 → R) (ε : ℝ)
    (hline : ∀ a b : V3, b ≠ 0 → ‖b‖ ≤ 2 * eta * (‖m1 - m2‖ - r1 - r2) →
      (∀ s ∈ Set.Icc (0 : ℝ) 1, ‖m1 - m2‖ - r1 - r2 ≤ ‖a + s • b‖ ∧ ‖a + s • b‖ ≤ ‖m1 - m2‖ + r1 + r2) → ∀ g : ℝ → R,
      (∀ s ∈ Set.Icc (0 : ℝ) 1, g s = k (a + s • b)) → ∀ s ∈ Set.Icc (0 : ℝ) 1, ‖Interpol.interp (chebychevRoots n) n g s - g s‖ ≤ ε)
    (f : ℝ × ℝ → ℝ × ℝ → R) (hf : ∀ y z, ClosedSquare y → ClosedSquare z →
      f y z = k ((o1 + y.1 • (h1 • u1) + y.2 • (h1 • v1)) - (o2 + z.1 • (h2 • u2) + z.2 • (h2 • v2))))
    (y z : ℝ × ℝ) (hy : ClosedSquare y) (hz : ClosedSquare z) :
    ‖interpolate (chebychevRoots n) n f y z - f y z‖ ≤ growth n * ε := by
  set δ := ‖m1 - m2‖ - r1 - r2 with hδ
  have a1 : r1 ≤ eta * δ := (le_max_left _ _).trans hadm.le
  have a2 : r2 ≤ eta * δ := (le_max_right _ _).trans hadm.le
  have dist : ∀ y z : ℝ × ℝ, ClosedSquare y → ClosedSquare z →
      δ ≤ ‖(o1 + y.1 • (h1 • u1) + y.2 • (h1 • v1)) - (o2 + z.1 • (h2 • u2) + z.2 • (h2 • v2))‖ ∧
      ‖(o1 + y.1 • (h1 • u1) + y.2 • (h1 • v1)) - (o2 + z.1 • (h2 • u2) + z.2 • (h2 • v2))‖ ≤ ‖m1 - m2‖ + r1 + r2 := by
    intro y z hy hz
    have c1 := b1 y hy
    have c2 := b2 z hz
    set A := o1 + y.1 • (h1 • u1) + y.2 • (h1 • v1)
    set B := o2 + z.1 • (h2 • u2) + z.2 • (h2 • v2)
    constructor
    · have : m1 - m2 = (m1 - A) + (A - B) + (B - m2) := by abel
      have := (congrArg norm this).le.trans ((norm_add_le _ _).trans (add_le_add_left (norm_add_le _ _) _))
      rw [norm_sub_rev m1 A] at this
      rw [hδ]; linarith
    · have : A - B = (A - m1) + (m1 - m2) + (m2 - B) := by abel
      have := (congrArg norm this).le.trans ((norm_add_le _ _).trans (add_le_add_left (norm_add_le _ _) _))
      rw [norm_sub_rev m2 B] at this
      linarith
  have side : ∀ (o u v m : V3) (h r : ℝ), (∀ y : ℝ × ℝ, ClosedSquare y → ‖o + y.1 • (h • u) + y.2 • (h • v) - m‖ ≤ r) → r ≤ eta * δ →
      ‖h • u‖ ≤ 2 * eta * δ ∧ ‖h • v‖ ≤ 2 * eta * δ := by
    intro o u v m h r hb hr
    have k0 := hb (0, 0) (by norm_num [ClosedSquare])
    have k1 := hb (1, 0) (by norm_num [ClosedSquare])
    have k2 := hb (0, 1) (by norm_num [ClosedSquare])
    simp only [zero_smul, one_smul, add_zero] at k0 k1 k2
    constructor
    · have : h • u = (o + h • u - m) - (o - m) := by abel
      rw [this]
      exact (norm_sub_le _ _).trans (by linarith)
    · have : h • v = (o + h • v - m) - (o - m) := by abel
      rw [this]
      exact (norm_sub_le _ _).trans (by linarith)
  obtain ⟨s1, s2⟩ := side o1 u1 v1 m1 h1 r1 b1 a1
  obtain ⟨s3, s4⟩ := side o2 u2 v2 m2 h2 r2 b2 a2
  have ne : ∀ (h : ℝ) (u : V3), 0 < h → u ≠ 0 → h • u ≠ 0 := fun h u hh hu => smul_ne_zero hh.ne' hu
  -- a line in the parameters
  have gen : ∀ (Y Z : ℝ → ℝ × ℝ) (a b : V3), (∀ s ∈ Set.Icc (0 : ℝ) 1, ClosedSquare (Y s) ∧ ClosedSquare (Z s)) → b ≠ 0 → ‖b‖ ≤ 2 * eta * δ →
      (∀ s : ℝ, (o1 + (Y s).1 • (h1 • u1) + (Y s).2 • (h1 • v1)) - (o2 + (Z s).1 • (h2 • u2) + (Z s).2 • (h2 • v2)) = a + s • b) →
      ∀ s ∈ Set.Icc (0 : ℝ) 1, ‖Interpol.interp (chebychevRoots n) n (fun s => f (Y s) (Z s)) s - f (Y s) (Z s)‖ ≤ ε := by
    intro Y Z a b hsq hb hbn heq s hs
    refine hline a b hb hbn (fun s hs => ?_) (fun s => f (Y s) (Z s)) (fun s hs => ?_) s hs
    · rw [← heq s]; exact dist _ _ (hsq s hs).1 (hsq s hs).2
    · show f (Y s) (Z s) = _
      rw [hf _ _ (hsq s hs).1 (hsq s hs).2, heq s]
  exact Interpol.error_four n (chebychevRoots n) (cheb_facts n).2 (2 * n) (fun s hs => Interpol.lebesgue_bound n s hs) f ε
    (fun b hb c hc d hd => gen (fun s => (s, b)) (fun _ => (c, d)) (o1 + b • (h1 • v1) - (o2 + c • (h2 • u2) + d • (h2 • v2))) (h1 • u1)
      (fun s hs => ⟨⟨hs.1, hs.2, hb.1, hb.2⟩, ⟨hc.1, hc.2, hd.1, hd.2⟩⟩) (ne _ _ hh1 hu1) s1 (fun s => by simp only; module))
    (fun a ha c hc d hd => gen (fun s => (a, s)) (fun _ => (c, d)) (o1 + a • (h1 • u1) - (o2 + c • (h2 • u2) + d • (h2 • v2))) (h1 • v1)
      (fun s hs => ⟨⟨ha.1, ha.2, hs.1, hs.2⟩, ⟨hc.1, hc.2, hd.1, hd.2⟩⟩) (ne _ _ hh1 hv1) s2 (fun s => by simp only; module))
    (fun a ha b hb d hd => gen (fun _ => (a, b)) (fun s => (s, d)) (o1 + a • (h1 • u1) + b • (h1 • v1) - (o2 + d • (h2 • v2))) (-(h2 • u2))
      (fun s hs => ⟨⟨ha.1, ha.2, hb.1, hb.2⟩, ⟨hs.1, hs.2, hd.1, hd.2⟩⟩) (neg_ne_zero.2 (ne _ _ hh2 hu2)) (by rw [norm_neg]; exact s3)
      (fun s => by simp only; module))
    (fun a ha b hb c hc => gen (fun _ => (a, b)) (fun s => (c, s)) (o1 + a • (h1 • u1) + b • (h1 • v1) - (o2 + c • (h2 • u2))) (-(h2 • v2))
      (fun s hs => ⟨⟨ha.1, ha.2, hb.1, hb.2⟩, ⟨hc.1, hc.2, hs.1, hs.2⟩⟩) (neg_ne_zero.2 (ne _ _ hh2 hv2)) (by rw [norm_neg]; exact s4)
      (fun s => by simp only; module))
    y z ⟨hy.1, hy.2.1⟩ ⟨hy.2.2.1, hy.2.2.2⟩ ⟨hz.1, hz.2.1⟩ ⟨hz.2.2.1, hz.2.2.2⟩

/-- With given tangents the far field kernels are affine functions of the difference of the points times analytic functions of the distance. -/
def Radial (Em : R →ₗᵢ[ℝ] ℂ) (op : Operator R) : Prop :=
  ∀ (u1 v1 u2 v2 : V3) (a b : Nat), ∃ (κ : ℂ) (N : V3) (Φ : ℂ → ℂ), DifferentiableOn ℂ Φ {z | z ≠ 0} ∧ ∀ p1 p2 : SurfPt, p1.dx = u1 → p1.dy = v1 →
    p2.dx = u2 → p2.dy = v2 → Em (op.fmm p1 p2 a b) = (κ + ((inner ℝ (p1.f - p2.f) N : ℝ) : ℂ)) * Φ (‖p1.f - p2.f‖ : ℝ)

theorem interp_li (Em : R →ₗᵢ[ℝ] ℂ) (x : Nat → ℝ) (n : Nat) (g : ℝ → R) (s : ℝ) : Em (Interpol.interp x n g s) = Interpol.interp x n (fun u => Em (g u)) s := by
  unfold Interpol.interp
  rw [map_sum]
  refine sum_congr rfl fun i _ => ?_
  rw [← Algebra.smul_def, map_smul, Algebra.smul_def]

theorem fin_bound {ι : Type} (s : Set ι) (hs : s.Finite) (Q : ι → ℝ → Prop) (mono : ∀ i x y, x ≤ y → Q i x → Q i y) (h : ∀ i ∈ s, ∃ x, Q i x) :
    ∃ x, 0 ≤ x ∧ ∀ i ∈ s, Q i x := by
  induction s, hs using Set.Finite.induction_on with
  | empty => exact ⟨0, le_rfl, by simp⟩
  | @insert a s _ _ ih =>
    obtain ⟨x, x0, hx⟩ := ih fun i hi => h i (Set.mem_insert_of_mem _ hi)
    obtain ⟨y, hy⟩ := h a (Set.mem_insert _ _)
    refine ⟨max x y, x0.trans (le_max_left _ _), fun i hi => ?_⟩
    rcases hi with rfl | hi
    · exact mono _ _ _ (le_max_right _ _) hy
    · exact mono _ _ _ (le_max_left _ _) (hx i hi)

theorem growth_absorb (γ' γ : ℝ) (h0 : 0 < γ') (h : γ' < γ) : ∃ C, 0 ≤ C ∧ ∀ n : Nat, growth n * γ' ^ n ≤ C * γ ^ n := by
  have hγ : 0 < γ := h0.trans h
  have ht := growth_tendsto (γ' / γ) (by positivity) ((div_lt_one hγ).2 h) 0
  obtain ⟨C, hC⟩ := ht.bddAbove_range
  refine ⟨|C|, abs_nonneg _, fun n => ?_⟩
  have := hC ⟨n, rfl⟩
  simp only [pow_zero, one_mul] at this
  rw [div_pow, ← mul_div_assoc, div_le_iff₀ (by positivity)] at this
  exact this.trans (mul_le_mul_of_nonneg_right (le_abs_self _) (by positivity))

theorem absQuad_bound (Q : Quad1 ℝ) (hw : ∀ q < Q.size, 0 ≤ Q.w q) (hs : ∑ q ∈ range Q.size, Q.w q = 1) (hQ : ∀ q < Q.size, 0 ≤ Q.xi q ∧ Q.xi q ≤ 1)
    (g : ℝ × ℝ → ℝ) (A : ℝ) (hg : ∀ s, ClosedSquare s → |g s| ≤ A) : 0 ≤ absQuad Q g ∧ absQuad Q g ≤ A := by
  unfold absQuad
  refine ⟨sum_nonneg fun q _ => sum_nonneg fun q' _ => by positivity, ?_⟩
  calc ∑ q ∈ range Q.size, ∑ q' ∈ range Q.size, |Q.w q * Q.w q'| * |g (Q.xi q, Q.xi q')| ≤
      ∑ q ∈ range Q.size, ∑ q' ∈ range Q.size, Q.w q * Q.w q' * A := by
        refine sum_le_sum fun q hq => sum_le_sum fun q' hq' => ?_
        have hq := mem_range.1 hq
        have hq' := mem_range.1 hq'
        have := mul_nonneg (hw q hq) (hw q' hq')
        rw [abs_of_nonneg this]
        exact mul_le_mul_of_nonneg_left (hg _ ⟨(hQ q hq).1, (hQ q hq).2, (hQ q' hq').1, (hQ q' hq').2⟩) this
    _ = A := by simp only [← sum_mul, ← mul_sum, hs, mul_one, one_mul]

theorem nodes_finite (P M : Nat) : {a : Addr | ∃ l ≤ M, IsNode P l a}.Finite := by
  have : {a : Addr | ∃ l ≤ M, IsNode P l a} = ⋃ l ∈ Set.Iic M, {a | a ∈ leaves P l} := by
    ext a
    simp only [Set.mem_setOf_eq, Set.mem_iUnion, Set.mem_Iic, mem_leaves, exists_prop]
    exact Iff.rfl
  rw [this]
  exact Set.Finite.biUnion (Set.finite_Iic M) fun l _ => List.finite_toSet _

/-- The general theorem. -/
theorem exponential (Em : R →ₗᵢ[ℝ] ℂ) (op : Operator R) (T : (P M d a i : Nat) → ℝ × ℝ → ℝ) (hop : Contracts op T) (hpos : PositionOnly op)
    (hrad : Radial Em op) (hT : ∀ p M d a i, ∃ A, ∀ s, ClosedSquare s → |T p M d a i s| ≤ A) : ExponentialFarField op T := by
  intro near corner P M hP hc geo hgeo ⟨S, hflat⟩ hw t ht junk B0 B hB eta γ he hγ p
  obtain ⟨γ', g1, g2⟩ := exists_between hγ
  have hγ'0 : 0 < γ' := lt_trans (by positivity) g1
  set θ := eta / 2 / γ' with hθ
  have hθ0 : 0 < θ := by rw [hθ]; positivity
  have hθ1 : θ < 1 := by rw [hθ, div_lt_one hγ'0]; exact g1
  have hrate : 2 * eta / (4 * θ) = γ' := by rw [hθ]; field_simp; ring
  obtain ⟨C0, hC0, hC0n⟩ := growth_absorb γ' γ hγ'0 g2
  have fb := flat_ball near corner P M hP hc geo S hflat hw t ht junk B0 B hB
  -- the interpolation error
  obtain ⟨K, hK0, hK⟩ := fin_bound ({x : Addr × Addr × Nat × Nat | (∃ l ≤ M, IsNode P l x.1) ∧ (∃ l ≤ M, IsNode P l x.2.1) ∧
      x.2.2.1 < op.vd * op.nc ∧ x.2.2.2 < op.vd * op.nc})
    ((((nodes_finite P M).prod ((nodes_finite P M).prod ((Set.finite_lt_nat _).prod (Set.finite_lt_nat _))))).subset
      fun x hx => ⟨hx.1, hx.2.1, hx.2.2.1, hx.2.2.2⟩)
    (fun x K => max (B x.1).rad (B x.2.1).rad < eta * (‖(B x.1).mid - (B x.2.1).mid‖ - (B x.1).rad - (B x.2.1).rad) →
      ∀ n, 0 < n → ∀ y z, ClosedSquare y → ClosedSquare z → ‖interpolate (chebychevRoots n) n
        (fun y z => op.fmm (SuperSpace.map2surface t geo x.1 y 1) (SuperSpace.map2surface t geo x.2.1 z 1) x.2.2.1 x.2.2.2) y z -
      op.fmm (SuperSpace.map2surface t geo x.1 y 1) (SuperSpace.map2surface t geo x.2.1 z 1) x.2.2.1 x.2.2.2‖ ≤ K * (growth n * γ' ^ n))
    (fun x K K' hKK h hadm n hn y z hy hz => (h hadm n hn y z hy hz).trans
      (mul_le_mul_of_nonneg_right hKK (mul_nonneg (growth_nonneg n) (by positivity))))
    (by
      rintro ⟨c1, c2, k, l⟩ ⟨⟨l1, hl1, i1⟩, ⟨l2, hl2, i2⟩, -, -⟩
      simp only at i1 i2 ⊢
      obtain ⟨o1, u1, v1, -, -, e1, p1⟩ := flat_point near corner P M hP t ht geo S hflat l1 hl1 c1 i1
      obtain ⟨o2, u2, v2, -, -, e2, p2⟩ := flat_point near corner P M hP t ht geo S hflat l2 hl2 c2 i2
      obtain ⟨R1, f1⟩ := fb l1 hl1 c1 i1
      obtain ⟨R2, f2⟩ := fb l2 hl2 c2 i2
      have z0 : ClosedSquare (0, 0) := by norm_num [ClosedSquare]
      have reg1 := node_regular near corner P M hP t ht geo hgeo l1 hl1 c1 i1 (0, 0) z0 1
      have reg2 := node_regular near corner P M hP t ht geo hgeo l2 hl2 c2 i2 (0, 0) z0 1
      rw [p1 _ z0] at reg1
      rw [p2 _ z0] at reg2
      have nz : ∀ u v : V3, cross3 u v ≠ 0 → u ≠ 0 ∧ v ≠ 0 := by
        intro u v h
        have k := cross_le u v
        constructor
        · rintro rfl; rw [norm_zero, zero_mul] at k; exact h (norm_le_zero_iff.1 k)
        · rintro rfl; rw [norm_zero, mul_zero] at k; exact h (norm_le_zero_iff.1 k)
      obtain ⟨hu1, hv1⟩ := nz u1 v1 reg1
      obtain ⟨hu2, hv2⟩ := nz u2 v2 reg2
      obtain ⟨κ, N, Φ, hΦ, hk⟩ := hrad u1 v1 u2 v2 k l
      by_cases hadm : max (B c1).rad (B c2).rad < eta * (‖(B c1).mid - (B c2).mid‖ - (B c1).rad - (B c2).rad)
      swap
      · exact ⟨0, fun h => absurd h hadm⟩
      have hδ : 0 < ‖(B c1).mid - (B c2).mid‖ - (B c1).rad - (B c2).rad := by
        have : 0 < eta * (‖(B c1).mid - (B c2).mid‖ - (B c1).rad - (B c2).rad) := lt_of_le_of_lt (R1.trans (le_max_left _ _)) hadm
        exact (mul_pos_iff_of_pos_left he).1 this
      obtain ⟨K, hK0, hK⟩ := Interpol.radial_line Φ hΦ κ N _ (‖(B c1).mid - (B c2).mid‖ + (B c1).rad + (B c2).rad) θ hδ hθ0 hθ1
      refine ⟨2 * K, fun _ n hn y z hy hz => ?_⟩
      -- the kernel as a function of the difference
      have hinj := Em.injective
      let kk : V3 → R := fun d => op.fmm ⟨(0, 0), 1, d, u1, v1⟩ ⟨(0, 0), 1, 0, u2, v2⟩ k l
      have hkk : ∀ d, Em (kk d) = (κ + ((inner ℝ d N : ℝ) : ℂ)) * Φ (‖d‖ : ℝ) := fun d => by
        have := hk ⟨(0, 0), 1, d, u1, v1⟩ ⟨(0, 0), 1, 0, u2, v2⟩ rfl rfl rfl rfl
        simpa only [sub_zero] using this
      have := flat_interp (R := R) n o1 u1 v1 o2 u2 v2 (B c1).mid (B c2).mid (B c1).rad (B c2).rad eta (getH t c1) (getH t c2)
        (by rw [e1]; positivity) (by rw [e2]; positivity) he hu1 hv1 hu2 hv2 R1 hadm
        (fun y hy => by have := f1 y hy; rw [p1 y hy] at this; exact this)
        (fun y hy => by have := f2 y hy; rw [p2 y hy] at this; exact this) kk (2 * K * γ' ^ n)
        (fun a b hb hbn hd g hg s hs => by
          have := hK n hn (cheb_facts n).1 (cheb_facts n).2 a b hb (2 * eta) hbn hd (fun s => Em (g s))
            (fun s hs => by rw [hg s hs, hkk]) s hs
          rw [hrate, ← interp_li, ← map_sub, Em.norm_map] at this
          exact this)
        (fun y z => op.fmm (SuperSpace.map2surface t geo c1 y 1) (SuperSpace.map2surface t geo c2 z 1) k l)
        (fun y z hy hz => by
          apply hinj
          rw [hkk, p1 y hy, p2 z hz]
          exact hk _ _ rfl rfl rfl rfl) y z hy hz
      refine this.trans (le_of_eq (by ring)))
  -- the shape functions
  obtain ⟨A, hA0, hA⟩ := fin_bound ({x : Nat × Nat × Nat | x.1 < op.vd ∧ x.2.1 < op.nc ∧ x.2.2 < (p + 1) * (p + 1)})
    (((Set.finite_lt_nat _).prod ((Set.finite_lt_nat _).prod (Set.finite_lt_nat _))).subset fun x hx => ⟨hx.1, hx.2.1, hx.2.2⟩)
    (fun x A => ∀ s, ClosedSquare s → |T p M x.1 x.2.1 x.2.2 s| ≤ A) (fun x A A' hAA h s hs => (h s hs).trans hAA)
    (fun x _ => hT p M x.1 x.2.1 x.2.2)
  refine ⟨K * C0 * (op.nc * op.nc * (A * A)), fun n hn Q hQ hQw hQs jr jk l hl c1 c2 i1 i2 hadm L1 L2 hL1 hL2 a ha b hb i hi j hj r hr c hc' => ?_⟩
  have entry := C87_entry near corner P M hP t ht geo hgeo op T hop hpos Q hQ (chebychevRoots n) n p jr jk l hl c1 c2 i1 i2 L1 L2 hL1 hL2 a b ha hb
    (K * (growth n * γ' ^ n)) (fun y z hy hz k hk l' hl' => hK (c1, c2, k, l') ⟨⟨l, hl, i1⟩, ⟨l, hl, i2⟩, hk, hl'⟩ hadm n hn y z hy hz) i j hi hj r c hr hc'
  refine entry.trans ?_
  have hh : ∀ a, 0 ≤ getH t a ∧ getH t a ≤ 1 := fun a => by
    unfold getH
    exact ⟨by positivity, by rw [div_le_one (by positivity)]; exact one_le_pow₀ (by norm_num)⟩
  have hsum0 : 0 ≤ ∑ α ∈ range op.nc, ∑ β ∈ range op.nc, absQuad Q (T p M i α r) * absQuad Q (T p M j β c) :=
    sum_nonneg fun α hα => sum_nonneg fun β hβ => mul_nonneg
      (absQuad_bound Q hQw hQs hQ _ A (hA (i, α, r) ⟨hi, mem_range.1 hα, hr⟩)).1 (absQuad_bound Q hQw hQs hQ _ A (hA (j, β, c) ⟨hj, mem_range.1 hβ, hc'⟩)).1
  have hsum : ∑ α ∈ range op.nc, ∑ β ∈ range op.nc, absQuad Q (T p M i α r) * absQuad Q (T p M j β c) ≤ op.nc * op.nc * (A * A) := by
    calc _ ≤ ∑ α ∈ range op.nc, ∑ β ∈ range op.nc, A * A := by
          refine sum_le_sum fun α hα => sum_le_sum fun β hβ => ?_
          have q1 := absQuad_bound Q hQw hQs hQ _ A (hA (i, α, r) ⟨hi, mem_range.1 hα, hr⟩)
          have q2 := absQuad_bound Q hQw hQs hQ _ A (hA (j, β, c) ⟨hj, mem_range.1 hβ, hc'⟩)
          exact mul_le_mul q1.2 q2.2 q2.1 hA0
      _ = _ := by simp only [sum_const, card_range, nsmul_eq_mul]; ring
  have hprod : getH t a * getH t b * ∑ α ∈ range op.nc, ∑ β ∈ range op.nc, absQuad Q (T p M i α r) * absQuad Q (T p M j β c) ≤
      op.nc * op.nc * (A * A) := by
    refine le_trans (mul_le_of_le_one_left hsum0 ?_) hsum
    exact mul_le_one₀ (hh a).2 (hh b).1 (hh b).2
  have hprod0 := mul_nonneg (mul_nonneg (hh a).1 (hh b).1) hsum0
  have hγ0 : 0 < γ := hγ'0.trans g2
  calc _ ≤ K * (C0 * γ ^ n) * (op.nc * op.nc * (A * A)) :=
        mul_le_mul (mul_le_mul_of_nonneg_left (hC0n n) hK0) hprod hprod0 (by positivity)
    _ = _ := by ring

theorem poly_bounded (f : ℝ × ℝ → ℝ) (hf : Continuous f) : ∃ A, ∀ s, ClosedSquare s → |f s| ≤ A := by
  have hc : IsCompact (Set.Icc (0 : ℝ) 1 ×ˢ Set.Icc (0 : ℝ) 1) := isCompact_Icc.prod isCompact_Icc
  obtain ⟨A, hA⟩ := hc.exists_bound_of_continuousOn hf.continuousOn
  exact ⟨A, fun s hs => hA s ⟨⟨hs.1, hs.2.1⟩, ⟨hs.2.2.1, hs.2.2.2⟩⟩⟩

theorem bern_cont (P i : Nat) : Continuous (bern P i : ℝ → ℝ) :=
  continuous_iff_continuousAt.2 fun x => (bern_deriv P i x).continuousAt

theorem shape_cont (P i : Nat) : Continuous (shape P i) := by
  unfold shape
  exact ((bern_cont _ _).comp continuous_fst).mul ((bern_cont _ _).comp continuous_snd)

theorem shapeDx_cont (P i : Nat) : Continuous (shapeDx P i) := by
  rw [funext (shapeDx_eq P i)]
  exact ((Polynomial.continuous _).comp continuous_fst).mul ((bern_cont _ _).comp continuous_snd)

theorem shapeDy_cont (P i : Nat) : Continuous (shapeDy P i) := by
  rw [funext (shapeDy_eq P i)]
  exact ((bern_cont _ _).comp continuous_fst).mul ((Polynomial.continuous _).comp continuous_snd)

theorem valueT_bounded (p M d a i : Nat) : ∃ A, ∀ s, ClosedSquare s → |valueT p M d a i s| ≤ A := poly_bounded _ (shape_cont p i)

theorem gradT_bounded (p M d a i : Nat) : ∃ A, ∀ s, ClosedSquare s → |gradT p M d a i s| ≤ A := by
  refine poly_bounded _ ?_
  unfold gradT
  split_ifs
  · exact continuous_const.mul (shapeDx_cont p i)
  · exact continuous_const.mul (shapeDy_cont p i)

theorem valueGradT_bounded (p M d a i : Nat) : ∃ A, ∀ s, ClosedSquare s → |valueGradT p M d a i s| ≤ A := by
  refine poly_bounded _ ?_
  unfold valueGradT
  split_ifs
  · exact shape_cont p i
  · exact continuous_const.mul (shapeDx_cont p i)
  · exact continuous_const.mul (shapeDy_cont p i)

theorem divT_bounded (p M d a i : Nat) : ∃ A, ∀ s, ClosedSquare s → |divT p M d a i s| ≤ A := by
  refine poly_bounded _ ?_
  unfold divT
  split_ifs
  · exact shape_cont p i
  · exact continuous_const.mul (shapeDx_cont p i)
  · exact continuous_const.mul (shapeDy_cont p i)

/-! kernels -/

theorem inv_diff : DifferentiableOn ℂ (fun z : ℂ => z⁻¹) {z | z ≠ 0} := fun z hz => (differentiableAt_inv hz).differentiableWithinAt

theorem helm_diff (k : ℂ) : DifferentiableOn ℂ (fun z : ℂ => Complex.exp (-Complex.I * k * z) * z⁻¹) {z | z ≠ 0} :=
  DifferentiableOn.mul (by fun_prop) inv_diff

theorem lapGrad_diff : DifferentiableOn ℂ (fun z : ℂ => z⁻¹ ^ 3) {z | z ≠ 0} := inv_diff.pow 3

theorem helmGrad_diff (k : ℂ) : DifferentiableOn ℂ (fun z : ℂ => Complex.exp (-Complex.I * k * z) * (1 + Complex.I * k * z) * z⁻¹ ^ 3) {z | z ≠ 0} :=
  DifferentiableOn.mul (by fun_prop) lapGrad_diff

/-- Kernels that are multiples of the fundamental solution. -/
theorem radial_lap (A : ℝ) (x y : V3) : (((Kernel.laplace x y * A : ℝ)) : ℂ) =
    (((A / 4 / Real.pi : ℝ) : ℂ) + ((inner ℝ (x - y) (0 : V3) : ℝ) : ℂ)) * ((‖x - y‖ : ℝ) : ℂ)⁻¹ := by
  unfold Kernel.laplace
  rw [inner_zero_right]
  push_cast
  ring

theorem radial_helm (k : ℂ) (A : ℂ) (x y : V3) : Kernel.helmholtz k x y * A =
    ((A / 4 / Real.pi) + ((inner ℝ (x - y) (0 : V3) : ℝ) : ℂ)) * (Complex.exp (-Complex.I * k * ((‖x - y‖ : ℝ) : ℂ)) * ((‖x - y‖ : ℝ) : ℂ)⁻¹) := by
  unfold Kernel.helmholtz
  rw [inner_zero_right]
  push_cast
  ring

theorem radial_lapSL : Radial Complex.ofRealLI Operator.laplaceSL := fun u1 v1 u2 v2 a b =>
  ⟨_, 0, _, inv_diff, fun p1 p2 h1 h2 h3 h4 => by
    rw [← radial_lap (‖cross3 u1 v1‖ * ‖cross3 u2 v2‖), ← h1, ← h2, ← h3, ← h4]
    simp only [Operator.laplaceSL, Complex.ofRealLI_apply]
    push_cast; ring⟩

theorem radial_lapDL : Radial Complex.ofRealLI Operator.laplaceDL := fun u1 v1 u2 v2 a b =>
  ⟨0, (‖cross3 u1 v1‖ / 4 / Real.pi) • cross3 u2 v2, _, lapGrad_diff, fun p1 p2 h1 h2 h3 h4 => by
    rw [inner_smul_right, ← h1, ← h2, ← h3, ← h4]
    simp only [Operator.laplaceDL, Kernel.laplaceDL, Complex.ofRealLI_apply]
    push_cast; ring⟩

theorem radial_lapADL : Radial Complex.ofRealLI Operator.laplaceADL := fun u1 v1 u2 v2 a b =>
  ⟨0, (-‖cross3 u2 v2‖ / 4 / Real.pi) • cross3 u1 v1, _, lapGrad_diff, fun p1 p2 h1 h2 h3 h4 => by
    rw [inner_smul_right, ← h1, ← h2, ← h3, ← h4]
    simp only [Operator.laplaceADL, Kernel.laplaceADL, Complex.ofRealLI_apply]
    push_cast; ring⟩

theorem radial_zero (Em : R →ₗᵢ[ℝ] ℂ) (f : SurfPt → SurfPt → R) (u1 v1 u2 v2 : V3) (h : ∀ p1 p2, f p1 p2 = 0) :
    ∃ (κ : ℂ) (N : V3) (Φ : ℂ → ℂ), DifferentiableOn ℂ Φ {z | z ≠ 0} ∧ ∀ p1 p2 : SurfPt, p1.dx = u1 → p1.dy = v1 →
    p2.dx = u2 → p2.dy = v2 → Em (f p1 p2) = (κ + ((inner ℝ (p1.f - p2.f) N : ℝ) : ℂ)) * Φ (‖p1.f - p2.f‖ : ℝ) :=
  ⟨0, 0, fun _ => 0, differentiableOn_const 0, fun p1 p2 _ _ _ _ => by rw [h, map_zero, mul_zero]⟩

theorem radial_multL (f : SurfPt → SurfPt → ℝ) (u1 v1 u2 v2 : V3) (A : V3 → V3 → V3 → V3 → ℝ)
    (h : ∀ p1 p2, f p1 p2 = Kernel.laplace p1.f p2.f * A p1.dx p1.dy p2.dx p2.dy) :
    ∃ (κ : ℂ) (N : V3) (Φ : ℂ → ℂ), DifferentiableOn ℂ Φ {z | z ≠ 0} ∧ ∀ p1 p2 : SurfPt, p1.dx = u1 → p1.dy = v1 →
    p2.dx = u2 → p2.dy = v2 → Complex.ofRealLI (f p1 p2) = (κ + ((inner ℝ (p1.f - p2.f) N : ℝ) : ℂ)) * Φ (‖p1.f - p2.f‖ : ℝ) :=
  ⟨_, 0, _, inv_diff, fun p1 p2 h1 h2 h3 h4 => by rw [← radial_lap (A u1 v1 u2 v2), h, h1, h2, h3, h4, Complex.ofRealLI_apply]⟩

theorem radial_multH (k : ℂ) (f : SurfPt → SurfPt → ℂ) (u1 v1 u2 v2 : V3) (A : V3 → V3 → V3 → V3 → ℂ)
    (h : ∀ p1 p2, f p1 p2 = Kernel.helmholtz k p1.f p2.f * A p1.dx p1.dy p2.dx p2.dy) :
    ∃ (κ : ℂ) (N : V3) (Φ : ℂ → ℂ), DifferentiableOn ℂ Φ {z | z ≠ 0} ∧ ∀ p1 p2 : SurfPt, p1.dx = u1 → p1.dy = v1 →
    p2.dx = u2 → p2.dy = v2 → (LinearIsometry.id : ℂ →ₗᵢ[ℝ] ℂ) (f p1 p2) = (κ + ((inner ℝ (p1.f - p2.f) N : ℝ) : ℂ)) * Φ (‖p1.f - p2.f‖ : ℝ) :=
  ⟨_, 0, _, helm_diff k, fun p1 p2 h1 h2 h3 h4 => by rw [← radial_helm k (A u1 v1 u2 v2), LinearIsometry.id_apply, h, h1, h2, h3, h4]⟩

theorem radial_lapHyp : Radial Complex.ofRealLI Operator.laplaceHyp := by
  intro u1 v1 u2 v2 a b
  match a, b with
  | 0, 0 => exact radial_multL _ u1 v1 u2 v2 (fun _ v1 _ v2 => inner ℝ v1 v2) fun p1 p2 => by simp only [Operator.laplaceHyp]
  | 0, 1 => exact radial_multL _ u1 v1 u2 v2 (fun _ v1 u2 _ => -inner ℝ v1 u2) fun p1 p2 => by simp only [Operator.laplaceHyp]; ring
  | 1, 0 => exact radial_multL _ u1 v1 u2 v2 (fun u1 _ _ v2 => -inner ℝ u1 v2) fun p1 p2 => by simp only [Operator.laplaceHyp]; ring
  | 1, 1 => exact radial_multL _ u1 v1 u2 v2 (fun u1 _ u2 _ => inner ℝ u1 u2) fun p1 p2 => by simp only [Operator.laplaceHyp]
  | a + 2, b => exact radial_zero _ _ u1 v1 u2 v2 fun p1 p2 => by simp only [Operator.laplaceHyp]
  | 0, b + 2 => exact radial_zero _ _ u1 v1 u2 v2 fun p1 p2 => by simp only [Operator.laplaceHyp]
  | 1, b + 2 => exact radial_zero _ _ u1 v1 u2 v2 fun p1 p2 => by simp only [Operator.laplaceHyp]

theorem radial_helmSL (k : ℂ) : Radial LinearIsometry.id (Operator.helmholtzSL k) := fun u1 v1 u2 v2 a b =>
  radial_multH k _ u1 v1 u2 v2 (fun u1 v1 u2 v2 => ((‖cross3 u1 v1‖ : ℝ) : ℂ) * ((‖cross3 u2 v2‖ : ℝ) : ℂ)) fun p1 p2 => by
    simp only [Operator.helmholtzSL]; ring

theorem radial_helmDL (k : ℂ) : Radial LinearIsometry.id (Operator.helmholtzDL k) := fun u1 v1 u2 v2 a b =>
  ⟨0, (‖cross3 u1 v1‖ / 4 / Real.pi) • cross3 u2 v2, _, helmGrad_diff k, fun p1 p2 h1 h2 h3 h4 => by
    rw [inner_smul_right, ← h1, ← h2, ← h3, ← h4]
    simp only [Operator.helmholtzDL, Kernel.helmholtzDL, LinearIsometry.id_apply]
    push_cast; ring⟩

theorem radial_helmADL (k : ℂ) : Radial LinearIsometry.id (Operator.helmholtzADL k) := fun u1 v1 u2 v2 a b =>
  ⟨0, (-‖cross3 u2 v2‖ / 4 / Real.pi) • cross3 u1 v1, _, helmGrad_diff k, fun p1 p2 h1 h2 h3 h4 => by
    rw [inner_smul_right, ← h1, ← h2, ← h3, ← h4]
    simp only [Operator.helmholtzADL, Kernel.helmholtzADL, LinearIsometry.id_apply]
    push_cast; ring⟩

theorem radial_helmHyp (k : ℂ) : Radial LinearIsometry.id (Operator.helmholtzHyp k) := by
  intro u1 v1 u2 v2 a b
  match a, b with
  | 0, 0 => exact radial_multH k _ u1 v1 u2 v2 (fun u1 v1 u2 v2 => -(k * k) * ((inner ℝ (cross3 u1 v1) (cross3 u2 v2) : ℝ) : ℂ)) fun p1 p2 => by
              simp only [Operator.helmholtzHyp]; ring
  | 1, 1 => exact radial_multH k _ u1 v1 u2 v2 (fun _ v1 _ v2 => ((inner ℝ v1 v2 : ℝ) : ℂ)) fun p1 p2 => by simp only [Operator.helmholtzHyp]
  | 1, 2 => exact radial_multH k _ u1 v1 u2 v2 (fun _ v1 u2 _ => -((inner ℝ v1 u2 : ℝ) : ℂ)) fun p1 p2 => by simp only [Operator.helmholtzHyp]; ring
  | 2, 1 => exact radial_multH k _ u1 v1 u2 v2 (fun u1 _ _ v2 => -((inner ℝ u1 v2 : ℝ) : ℂ)) fun p1 p2 => by simp only [Operator.helmholtzHyp]; ring
  | 2, 2 => exact radial_multH k _ u1 v1 u2 v2 (fun u1 _ u2 _ => ((inner ℝ u1 u2 : ℝ) : ℂ)) fun p1 p2 => by simp only [Operator.helmholtzHyp]
  | 0, b + 1 => exact radial_zero _ _ u1 v1 u2 v2 fun p1 p2 => by simp only [Operator.helmholtzHyp]
  | 1, 0 => exact radial_zero _ _ u1 v1 u2 v2 fun p1 p2 => by simp only [Operator.helmholtzHyp]
  | 2, 0 => exact radial_zero _ _ u1 v1 u2 v2 fun p1 p2 => by simp only [Operator.helmholtzHyp]
  | 1, b + 3 => exact radial_zero _ _ u1 v1 u2 v2 fun p1 p2 => by simp only [Operator.helmholtzHyp]
  | 2, b + 3 => exact radial_zero _ _ u1 v1 u2 v2 fun p1 p2 => by simp only [Operator.helmholtzHyp]
  | a + 3, b => exact radial_zero _ _ u1 v1 u2 v2 fun p1 p2 => by simp only [Operator.helmholtzHyp]

theorem radial_maxwell (k : ℂ) : Radial LinearIsometry.id (Operator.maxwellSL k) := by
  intro u1 v1 u2 v2 a b
  have div : ∀ f : SurfPt → SurfPt → ℂ, (∀ p1 p2, f p1 p2 = -Kernel.helmholtz k p1.f p2.f / (k * k)) → _ := fun f hf =>
    radial_multH k f u1 v1 u2 v2 (fun _ _ _ _ => -(k * k)⁻¹) fun p1 p2 => by rw [hf]; ring
  match a, b with
  | 0, 0 => exact radial_multH k _ u1 v1 u2 v2 (fun u1 _ u2 _ => ((inner ℝ u1 u2 : ℝ) : ℂ)) fun p1 p2 => by simp only [Operator.maxwellSL]
  | 0, 2 => exact radial_multH k _ u1 v1 u2 v2 (fun u1 _ _ v2 => ((inner ℝ u1 v2 : ℝ) : ℂ)) fun p1 p2 => by simp only [Operator.maxwellSL]
  | 2, 0 => exact radial_multH k _ u1 v1 u2 v2 (fun _ v1 u2 _ => ((inner ℝ v1 u2 : ℝ) : ℂ)) fun p1 p2 => by simp only [Operator.maxwellSL]
  | 2, 2 => exact radial_multH k _ u1 v1 u2 v2 (fun _ v1 _ v2 => ((inner ℝ v1 v2 : ℝ) : ℂ)) fun p1 p2 => by simp only [Operator.maxwellSL]
  | 1, 1 => exact div _ fun p1 p2 => by simp only [Operator.maxwellSL]
  | 1, 3 => exact div _ fun p1 p2 => by simp only [Operator.maxwellSL]
  | 3, 1 => exact div _ fun p1 p2 => by simp only [Operator.maxwellSL]
  | 3, 3 => exact div _ fun p1 p2 => by simp only [Operator.maxwellSL]
  | 0, 1 => exact radial_zero _ _ u1 v1 u2 v2 fun p1 p2 => by simp only [Operator.maxwellSL]
  | 0, b + 3 => exact radial_zero _ _ u1 v1 u2 v2 fun p1 p2 => by simp only [Operator.maxwellSL]
  | 1, 0 => exact radial_zero _ _ u1 v1 u2 v2 fun p1 p2 => by simp only [Operator.maxwellSL]
  | 1, 2 => exact radial_zero _ _ u1 v1 u2 v2 fun p1 p2 => by simp only [Operator.maxwellSL]
  | 1, b + 4 => exact radial_zero _ _ u1 v1 u2 v2 fun p1 p2 => by simp only [Operator.maxwellSL]
  | 2, 1 => exact radial_zero _ _ u1 v1 u2 v2 fun p1 p2 => by simp only [Operator.maxwellSL]
  | 2, b + 3 => exact radial_zero _ _ u1 v1 u2 v2 fun p1 p2 => by simp only [Operator.maxwellSL]
  | 3, 0 => exact radial_zero _ _ u1 v1 u2 v2 fun p1 p2 => by simp only [Operator.maxwellSL]
  | 3, 2 => exact radial_zero _ _ u1 v1 u2 v2 fun p1 p2 => by simp only [Operator.maxwellSL]
  | 3, b + 4 => exact radial_zero _ _ u1 v1 u2 v2 fun p1 p2 => by simp only [Operator.maxwellSL]
  | a + 4, b => exact radial_zero _ _ u1 v1 u2 v2 fun p1 p2 => by simp only [Operator.maxwellSL]

end Compress
open Compress

/-- C87: on surfaces of parallelograms the compression of every boundary integral operator of the Laplace, Helmholtz and Maxwell equations
is exponentially accurate in the number of interpolation points, with every rate above half of the admissibility parameter. -/
theorem C87_operators (k : ℂ) : ExponentialFarField Operator.laplaceSL valueT ∧ ExponentialFarField Operator.laplaceDL valueT ∧
    ExponentialFarField Operator.laplaceADL valueT ∧ ExponentialFarField Operator.laplaceHyp gradT ∧
    ExponentialFarField (Operator.helmholtzSL k) valueT ∧ ExponentialFarField (Operator.helmholtzDL k) valueT ∧
    ExponentialFarField (Operator.helmholtzADL k) valueT ∧ ExponentialFarField (Operator.helmholtzHyp k) valueGradT ∧
    ExponentialFarField (Operator.maxwellSL k) divT := by
  obtain ⟨c1, c2, c3, c4, c5, c6⟩ := C52_scalar k
  obtain ⟨q1, q2, q3, q4, q5, q6, q7, q8, q9⟩ := C63_position_only k
  exact ⟨exponential _ _ _ c1 q1 radial_lapSL valueT_bounded, exponential _ _ _ c2 q2 radial_lapDL valueT_bounded,
    exponential _ _ _ c3 q3 radial_lapADL valueT_bounded, exponential _ _ _ C52_laplaceHyp q4 radial_lapHyp gradT_bounded,
    exponential _ _ _ c4 q5 (radial_helmSL k) valueT_bounded, exponential _ _ _ c5 q6 (radial_helmDL k) valueT_bounded,
    exponential _ _ _ c6 q7 (radial_helmADL k) valueT_bounded, exponential _ _ _ (C52_helmholtzHyp k) q8 (radial_helmHyp k) valueGradT_bounded,
    exponential _ _ _ (C52_maxwell k) q9 (radial_maxwell k) divT_bounded⟩

/-- C87: the compressed matrices of these operators.  For every rate `γ` above half of the admissibility parameter there is a constant `C`, which
does not depend on the number `n` of interpolation points, such that for every order of the assembly tasks and all schedules the product with
the assembled H2-matrix is `res + alpha * Tᵀ A T * rhs`, where every entry of `A` is the entry of the dense assembly or differs from the
quadrature of the integrand by at most `C γ ^ n`. -/
theorem C87_product (op : Operator R) (hvd : 0 < op.vd) (hnc : 0 < op.nc) (T : (P M d a i : Nat) → ℝ × ℝ → ℝ)
    (mom : MomentEnv → (p cl r np : Nat) → List (EMat ℝ)) (hmom : MomentsFor op.vd op.nc T mom) (hexp : ExponentialFarField op T)
    (near : V3 → V3 → Bool) (corner : Nat → Nat → V3) (P M : Nat) (hP : 0 < P) (hc : ConformingPatches near corner P)
    (geo : Nat → ℝ × ℝ → V3 × V3 × V3) (hgeo : RegularPatches P geo) (S : ℝ) (hflat : FlatPatches P geo S)
    (hw : Watertight corner P fun p s => (geo p s).1)
    (t : Mesh.Tree ℝ) (ht : initElementTree near corner P M = some t) (junkB : Nat → V3) (B0 B : Addr → Ball V3)
    (hB : computeElementEnclosings t (fun p s => (geo p s).1) junkB B0 = some B) (eta γ : ℝ) (he : 0 < eta) (hγ : eta / 2 < γ) (minLevel : Int)
    (hm : 0 ≤ minLevel) (p : Nat) (trans : EMat R) (htr : trans.rows = op.vd * ((p + 1) * (p + 1) * t.nElements)) (jr : Nat → ℝ) (jk : Nat → R) :
    ∃ C, ∀ (pair : Addr → Addr → Option (Nat → Nat → R)) (v : Addr → Addr → Nat → Nat → R),
      (∀ a b, IsNode P M a → IsNode P M b → pair a b = some (v a b)) → ∀ (E : MomentEnv) (n : Nat), 0 < n → E.pts n = chebychevRoots n →
      (∀ q < (E.GL (gaussIndex n p)).size, 0 ≤ (E.GL (gaussIndex n p)).xi q ∧ (E.GL (gaussIndex n p)).xi q ≤ 1) →
      (∀ q < (E.GL (gaussIndex n p)).size, 0 ≤ (E.GL (gaussIndex n p)).w q) →
      ∑ q ∈ range (E.GL (gaussIndex n p)).size, (E.GL (gaussIndex n p)).w q = 1 →
      ∃ A : Nat → Nat → R,
      (∀ a b, IsNode P M a → IsNode P M b → ∀ i < op.vd, ∀ j < op.vd, ∀ r < (p + 1) * (p + 1), ∀ c < (p + 1) * (p + 1),
        let entry := A (i * ((p + 1) * (p + 1) * t.nElements) + ((p + 1) * (p + 1) * t.id a + r))
          (j * ((p + 1) * (p + 1) * t.nElements) + ((p + 1) * (p + 1) * t.id b + c))
        entry = v a b (i * ((p + 1) * (p + 1)) + r) (j * ((p + 1) * (p + 1)) + c) ∨
        ‖entry - directEntry t op (SuperSpace.map2surface t geo) (E.GL (gaussIndex n p)) p M jr jk a b (i * ((p + 1) * (p + 1)) + r)
          (j * ((p + 1) * (p + 1)) + c)‖ ≤ C * γ ^ n) ∧
      ∀ (junk : Nat → Nat → R) (junkE junkT : Nat → Nat → ℝ) (M0 : LeafMem R) (order : List Nat),
        order.Perm (List.range (leafPointers (initBlockClusterTree t B eta minLevel)).length) →
        ∃ H, initH2Matrix junk junkE junkT M0 op t B eta minLevel p trans (SuperSpace.map2surface t geo) pair E mom n order = some H ∧
        ∀ (junk : Nat → Nat → R) (S : Schedules H) (rhs res : EMat R) (alpha : R),
          rhs.rows = trans.cols → res.rows = trans.cols → res.cols = rhs.cols →
          ∃ res', run junk H S rhs res alpha = some res' ∧ res'.rows = res.rows ∧ res'.cols = res.cols ∧
          ∀ i < res.rows, ∀ c < res.cols, res'.at' i c = res.at' i c + alpha * ∑ r ∈ range trans.rows,
            ∑ k ∈ range trans.rows, ∑ d ∈ range trans.cols, trans.at' r i * A r k * trans.at' k d * rhs.at' d c := by
  have fb := flat_ball near corner P M hP hc geo S hflat hw t ht junkB B0 B hB
  obtain ⟨C, hC⟩ := hexp near corner P M hP hc geo hgeo ⟨S, hflat⟩ hw t ht junkB B0 B hB eta γ he hγ p
  refine ⟨C, fun pair v hv E n hn hx hQ hQw hQs => ?_⟩
  obtain ⟨A, h1, h2⟩ := C63_product near corner P M hP t ht op hvd hnc T mom hmom B (fun l hl a ha => (fb l hl a ha).1) eta minLevel hm p trans
    htr (SuperSpace.map2surface t geo) pair v hv E n hn (by rw [hx]; exact (cheb_facts n).1)
  refine ⟨A, fun a b ha hb i hi j hj r hr c hc' => ?_, h2⟩
  rcases h1 a b ha hb i hi j hj r hr c hc' with h | ⟨l, hl, c1, c2, i1, i2, ⟨L1, hL1, ha1⟩, ⟨L2, hL2, hb2⟩, hadm, he'⟩
  · exact Or.inl h
  · right
    rw [he', hx]
    exact hC n hn _ hQ hQw hQs jr jk l hl c1 c2 i1 i2 hadm L1 L2 hL1 hL2 a ha1 b hb2 i hi j hj r hr c hc'

/-- The hypotheses are met: the Maxwell single layer operator on the unit square with sixteen elements, where with the default parameter opposite
corners are compressed, converges with rate `0.81`. -/
example (k : ℂ) : ∃ (t : Mesh.Tree ℝ) (C : ℝ), initElementTree (nearBy (1 / 1000)) (fun q j => (flatSquare q (cornerPoint j)).1) 1 2 = some t ∧
    ∀ n : Nat, 0 < n → ∀ i < 2, ∀ j < 2, ∀ r < 9, ∀ c < 9,
    ‖farEntry t (Operator.maxwellSL k) (SuperSpace.map2surface t flatSquare) ⟨1, fun _ => 1, fun _ => 1 / 2⟩ (chebychevRoots n) n (divT 2 2)
        (0, [0, 0]) (0, [2, 2]) (0, [0, 0]) (0, [2, 2]) i j r c -
      directEntry t (Operator.maxwellSL k) (SuperSpace.map2surface t flatSquare) ⟨1, fun _ => 1, fun _ => 1 / 2⟩ 2 2 (fun _ => 0) (fun _ => 0)
        (0, [0, 0]) (0, [2, 2]) (i * 9 + r) (j * 9 + c)‖ ≤ C * 0.81 ^ n := by
  obtain ⟨t, B, h1, hB, i1, i2, hadm⟩ := example_admissible
  obtain ⟨C, hC⟩ := (C87_operators k).2.2.2.2.2.2.2.2 _ _ 1 2 (by norm_num) flatSquare_conforming flatSquare flatSquare_reg ⟨1, flatSquare_flat⟩
    flatSquare_water t h1 _ _ B hB 1.6 0.81 (by norm_num) (by norm_num) 2
  obtain ⟨t', e1, e2⟩ := C25_cluster_range (K := ℝ) (nearBy (1 / 1000)) (fun q j => (flatSquare q (cornerPoint j)).1) 1 2 (by norm_num)
  obtain rfl : t = t' := Option.some.inj (h1.symm.trans e1)
  obtain ⟨L1, u1, u2, -⟩ := e2 2 _ le_rfl i1
  obtain ⟨L2, v1, v2, -⟩ := e2 2 _ le_rfl i2
  refine ⟨t, C, h1, fun n hn i hi j hj r hr c hc => ?_⟩
  exact hC n hn ⟨1, fun _ => 1, fun _ => 1 / 2⟩ (fun _ _ => by norm_num) (fun _ _ => by norm_num) (by simp) (fun _ => 0) (fun _ => 0) 2 le_rfl
    _ _ i1 i2 hadm L1 L2 u1 v1 (0, [0, 0]) ((u2 _).2 ⟨[], rfl, by simp, rfl⟩) (0, [2, 2]) ((v2 _).2 ⟨[], rfl, by simp, rfl⟩) i hi j hj r hr c hc

end Bembel.Props
