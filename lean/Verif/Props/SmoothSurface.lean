import Verif.Props.CompressionFlat
import Verif.Props.Quadrature
import Verif.Lemmas.SmoothRate
import Verif.Lemmas.SmoothKernel
/-!
# C88: accuracy of quadrature and compression on smooth surfaces
-/

namespace Bembel.Props
open Finset Mesh H2 Spec Util
open scoped ContDiff

variable {R : Type} [RCLike R]

/-- C88: interpolation of a function with `m` bounded derivatives in each of the four coordinates, with more than `m` points per direction. -/
theorem C88_interpolation (n m : Nat) (hm : m < n) (f : ℝ × ℝ → ℝ × ℝ → R) (D : ℝ) (hf : PartialBound m f D) (y z : ℝ × ℝ)
    (hy : ClosedSquare y) (hz : ClosedSquare z) :
    ‖interpolate (chebychevRoots n) n f y z - f y z‖ ≤
      (1 + 2 * n + (2 * n) ^ 2 + (2 * n) ^ 3) * ((1 + 2 * n) * (D / (2 * √((n : ℝ) - m)) ^ m)) :=
  Interpol.interp_finite n m hm (Compress.cheb_facts n).1 (Compress.cheb_facts n).2 f D hf y z hy hz

/-- C88: a quadrature rule with non-negative weights of sum one that is exact up to degree `d`, applied to a function with `m ≤ d` bounded
derivatives. -/
theorem C88_quadrature (Q : Quad1 ℝ) (hx : ∀ q < Q.size, 0 ≤ Q.xi q ∧ Q.xi q ≤ 1) (hw : ∀ q < Q.size, 0 ≤ Q.w q) (d m : Nat) (hQ : ExactTo Q d)
    (hm : m ≤ d) (g : ℝ → R) (D : ℝ) (hg : DerivBound m g D) :
    ‖(∑ q ∈ range Q.size, algebraMap ℝ R (Q.w q) * g (Q.xi q)) - ∫ s in (0 : ℝ)..1, g s‖ ≤ 2 * (D / (2 * √((d : ℝ) + 1 - m)) ^ m) := by
  have hs : ∑ q ∈ range Q.size, Q.w q ≤ 1 := by
    have := hQ 1 (by simp)
    simp at this
    rw [this]
  have := Interpol.quad_jackson Q 1 ⟨hx, hw, hs⟩ d m hQ hm g D hg
  unfold Interpol.quad at this
  simp only [Algebra.smul_def] at this
  exact this.trans (le_of_eq (by ring))

namespace Smooth

/-- The Gauss rules of the library. -/
theorem gauss_facts (es : EigenSolver) (hes : SolverCorrect es) (order i : Nat) (h : i ≤ order) : Interpol.Positive (gaussLegendre es order i) 2 ∧
    (20 < i + 1 → ExactTo (gaussLegendre es order i) (2 * (i + 1) - 1)) := by
  obtain ⟨a1, a2⟩ := C47_all es hes order i h
  have ex : 20 < i + 1 → ExactTo (gaussLegendre es order i) (2 * (i + 1) - 1) := by
    intro hi
    rw [gaussLegendre, (C46_select _ order i h).1]
    have e : GaussTables.table (i + 1) = none := by
      unfold GaussTables.table
      split <;> first | omega | rfl
    rw [gaussLegendreRule, e]
    exact C47_generic es (i + 1) (by omega) (hes _ _)
  refine ⟨⟨fun q hq => ?_, fun q hq => ?_, ?_⟩, ex⟩
  · rw [a1] at hq; exact ⟨(a2 q hq).1.le, (a2 q hq).2.1.le⟩
  · rw [a1] at hq; exact (a2 q hq).2.2
  · by_cases hi : i + 1 ≤ 20
    · have := (C47_tables es (i + 1) (by omega) hi).2.2.2.2 0 (by omega)
      rw [a1, gaussLegendre, (C46_select _ order i h).1]
      simp only [pow_zero, mul_one, intervalIntegral.integral_const, sub_zero, smul_eq_mul] at this
      have := (abs_le.1 this).2
      have h39 : (1 : ℝ) / 10 ^ 39 ≤ 1 := by norm_num
      linarith
    · have := ex (by omega) 1 (by simp)
      simp at this
      rw [this]; norm_num

theorem gauss_rate (es : EigenSolver) (hes : SolverCorrect es) (f : ℝ × ℝ → ℝ × ℝ → R) (hf : SmoothPair f) (κ : Nat) : ∃ C, 0 ≤ C ∧
    ∀ order i, i ≤ order → ‖quadSquare (gaussLegendre es order i) (fun y => quadSquare (gaussLegendre es order i) fun z => f y z) -
      Interpol.integral4 f‖ ≤ C / ((i : ℝ) + 1) ^ κ := by
  obtain ⟨C1, h1, k1⟩ := Interpol.quad_rate f hf κ
  obtain ⟨C2, h2, k2⟩ := Interpol.quad_bounded f hf
  refine ⟨C1 + C2 * 20 ^ κ, by positivity, fun order i hi => ?_⟩
  obtain ⟨g1, g2⟩ := gauss_facts es hes order i hi
  have p0 : (0 : ℝ) < ((i : ℝ) + 1) ^ κ := by positivity
  by_cases h : 20 < i + 1
  · have := k1 _ _ g1 (g2 h)
    have e : ((2 * (i + 1) - 1 : Nat) : ℝ) + 1 = 2 * ((i : ℝ) + 1) := by
      have : (2 * (i + 1) - 1 : Nat) + 1 = 2 * (i + 1) := by omega
      exact_mod_cast this
    rw [e] at this
    refine this.trans ?_
    calc C1 / (2 * ((i : ℝ) + 1)) ^ κ ≤ C1 / ((i : ℝ) + 1) ^ κ := by
          refine div_le_div_of_nonneg_left h1 p0 (pow_le_pow_left₀ (by positivity) ?_ κ)
          have : (0 : ℝ) ≤ i := Nat.cast_nonneg i
          linarith
      _ ≤ _ := by gcongr; have : 0 ≤ C2 * 20 ^ κ := by positivity
                  linarith
  · refine (k2 _ g1).trans ?_
    rw [le_div_iff₀ p0]
    have : ((i : ℝ) + 1) ^ κ ≤ 20 ^ κ := pow_le_pow_left₀ (by positivity) (by exact_mod_cast not_lt.1 h) κ
    nlinarith

/-- Pulled back kernels of separated clusters are smooth. -/
theorem pair_smooth (op : Operator R) (hk : Interpol.SmoothKernel op) (hpos : PositionOnly op) {V : Type} (near : V → V → Bool) (corner : Nat → Nat → V)
    (P M : Nat) (hP : 0 < P) (t : Mesh.Tree ℝ) (ht : initElementTree near corner P M = some t) (geo : Nat → ℝ × ℝ → V3 × V3 × V3)
    (hreg : RegularPatches P geo) (hsm : SmoothPatches P geo) (l1 l2 : Nat) (hl1 : l1 ≤ M) (hl2 : l2 ≤ M) (c1 c2 : Addr) (i1 : IsNode P l1 c1)
    (i2 : IsNode P l2 c2) (hs : Separated t geo c1 c2) (a b : Nat) :
    SmoothPair fun y z => op.fmm (SuperSpace.map2surface t geo c1 y 1) (SuperSpace.map2surface t geo c2 z 1) a b := by
  have z0 : ClosedSquare (0, 0) := by norm_num [ClosedSquare]
  have q1 := node_square near corner P M hP t ht l1 hl1 c1 i1
  have q2 := node_square near corner P M hP t ht l2 hl2 c2 i2
  obtain ⟨g1, s1, e1⟩ := hsm _ (q1 _ z0).1
  obtain ⟨g2, s2, e2⟩ := hsm _ (q2 _ z0).1
  let φ1 : ℝ × ℝ → ℝ × ℝ := fun x => ((t.llc c1).1 + getH t c1 * x.1, (t.llc c1).2 + getH t c1 * x.2)
  let φ2 : ℝ × ℝ → ℝ × ℝ := fun x => ((t.llc c2).1 + getH t c2 * x.1, (t.llc c2).2 + getH t c2 * x.2)
  let K : (V3 × V3 × V3) × (V3 × V3 × V3) → R := fun q =>
    op.fmm ⟨(0, 0), 1, q.1.1, q.1.2.1, q.1.2.2⟩ ⟨(0, 0), 1, q.2.1, q.2.2.1, q.2.2.2⟩ a b
  refine ⟨fun x => K (g1 (φ1 x.1), g2 (φ2 x.2)), fun y z hy hz => ?_, fun y z hy hz => ?_⟩
  · have f1 := e1 _ (q1 y hy).2
    have f2 := e2 _ (q2 z hz).2
    have r1 := hreg _ (q1 y hy).1 _ (q1 y hy).2
    have r2 := hreg _ (q2 z hz).1 _ (q2 z hz).2
    have d := hs y z hy hz
    unfold SuperSpace.map2surface at d
    simp only at d
    rw [f1] at r1 d
    rw [f2] at r2 d
    have hK := hk a b (g1 (φ1 y), g2 (φ2 z)) d r1 r2
    refine ContDiffAt.comp (g := K) (f := fun x : (ℝ × ℝ) × (ℝ × ℝ) => (g1 (φ1 x.1), g2 (φ2 x.2))) (y, z) hK (ContDiffAt.prodMk ?_ ?_)
    · exact ContDiffAt.comp (g := g1) (f := fun x : (ℝ × ℝ) × (ℝ × ℝ) => φ1 x.1) (y, z) (s1 _ (q1 y hy).2) (by fun_prop)
    · exact ContDiffAt.comp (g := g2) (f := fun x : (ℝ × ℝ) × (ℝ × ℝ) => φ2 x.2) (y, z) (s2 _ (q2 z hz).2) (by fun_prop)
  · have f1 := e1 _ (q1 y hy).2
    have f2 := e2 _ (q2 z hz).2
    show op.fmm (SuperSpace.map2surface t geo c1 y 1) (SuperSpace.map2surface t geo c2 z 1) a b = K (g1 (φ1 y), g2 (φ2 z))
    rw [← hpos _ _ (0, 0) (0, 0) 1 1]
    unfold SuperSpace.map2surface
    simp only
    rw [f1, f2]

theorem pair_add {f g : ℝ × ℝ → ℝ × ℝ → R} (hf : SmoothPair f) (hg : SmoothPair g) : SmoothPair fun y z => f y z + g y z := by
  obtain ⟨F, F1, F2⟩ := hf
  obtain ⟨G, G1, G2⟩ := hg
  exact ⟨fun x => F x + G x, fun y z hy hz => (F1 y z hy hz).add (G1 y z hy hz), fun y z hy hz => by simp only []; rw [F2 y z hy hz, G2 y z hy hz]⟩

theorem pair_zero : SmoothPair fun _ _ => (0 : R) := ⟨fun _ => 0, fun _ _ _ _ => contDiffAt_const, fun _ _ _ _ => rfl⟩

theorem pair_sum {ι : Type} (s : Finset ι) (f : ι → ℝ × ℝ → ℝ × ℝ → R) (hf : ∀ i ∈ s, SmoothPair (f i)) : SmoothPair fun y z => ∑ i ∈ s, f i y z := by
  classical
  induction s using Finset.induction_on with
  | empty => simpa using pair_zero
  | insert a s ha ih =>
    simp only [sum_insert ha]
    exact pair_add (hf a (mem_insert_self _ _)) (ih fun i hi => hf i (mem_insert_of_mem hi))

theorem pair_mul {u v : ℝ × ℝ → ℝ} (hu : ContDiff ℝ ∞ u) (hv : ContDiff ℝ ∞ v) {f : ℝ × ℝ → ℝ × ℝ → R} (hf : SmoothPair f) :
    SmoothPair fun y z => algebraMap ℝ R (u y * v z) * f y z := by
  obtain ⟨F, F1, F2⟩ := hf
  refine ⟨fun x => (u x.1 * v x.2) • F x, fun y z hy hz => ?_, fun y z hy hz => by
    simp only []; rw [F2 y z hy hz, Algebra.smul_def]⟩
  have h : ContDiffAt ℝ ∞ (fun x : (ℝ × ℝ) × (ℝ × ℝ) => u x.1 * v x.2) (y, z) := ((hu.comp contDiff_fst).mul (hv.comp contDiff_snd)).contDiffAt
  exact h.smul (F1 y z hy hz)

theorem pair_const (c : ℝ) {f : ℝ × ℝ → ℝ × ℝ → R} (hf : SmoothPair f) : SmoothPair fun y z => algebraMap ℝ R c * f y z := by
  have := pair_mul (u := fun _ => c) (v := fun _ => 1) contDiff_const contDiff_const hf
  simpa using this

theorem bern_smooth (P i : Nat) : ContDiff ℝ ∞ (bern P i : ℝ → ℝ) := by
  unfold bern; fun_prop

theorem poly_smooth (p : Polynomial ℝ) : ContDiff ℝ ∞ fun x => p.eval x := by
  simp only [Polynomial.eval_eq_sum_range]; fun_prop

theorem shape_smooth (P i : Nat) : ContDiff ℝ ∞ (shape P i) := by
  unfold shape
  exact ((bern_smooth _ _).comp contDiff_fst).mul ((bern_smooth _ _).comp contDiff_snd)

theorem shapeDx_smooth (P i : Nat) : ContDiff ℝ ∞ (shapeDx P i) := by
  rw [funext (shapeDx_eq P i)]
  exact ((poly_smooth _).comp contDiff_fst).mul ((bern_smooth _ _).comp contDiff_snd)

theorem shapeDy_smooth (P i : Nat) : ContDiff ℝ ∞ (shapeDy P i) := by
  rw [funext (shapeDy_eq P i)]
  exact ((bern_smooth _ _).comp contDiff_fst).mul ((poly_smooth _).comp contDiff_snd)

theorem valueT_smooth (p M d a i : Nat) : ContDiff ℝ ∞ (valueT p M d a i) := shape_smooth p i

theorem gradT_smooth (p M d a i : Nat) : ContDiff ℝ ∞ (gradT p M d a i) := by
  unfold gradT
  split_ifs
  · exact contDiff_const.mul (shapeDx_smooth p i)
  · exact contDiff_const.mul (shapeDy_smooth p i)

theorem valueGradT_smooth (p M d a i : Nat) : ContDiff ℝ ∞ (valueGradT p M d a i) := by
  unfold valueGradT
  split_ifs
  · exact shape_smooth p i
  · exact contDiff_const.mul (shapeDx_smooth p i)
  · exact contDiff_const.mul (shapeDy_smooth p i)

theorem divT_smooth (p M d a i : Nat) : ContDiff ℝ ∞ (divT p M d a i) := by
  unfold divT
  split_ifs
  · exact shape_smooth p i
  · exact contDiff_const.mul (shapeDx_smooth p i)
  · exact contDiff_const.mul (shapeDy_smooth p i)

theorem inCluster_self {K : Type} [Field K] [CharZero K] (t : Mesh.Tree K) (a : Addr) (ξ : K × K) : inCluster t a a ξ = ξ := by
  have h : getH t a ≠ 0 := by unfold getH; exact div_ne_zero one_ne_zero (pow_ne_zero _ two_ne_zero)
  unfold inCluster mapToReferenceElement
  refine Prod.ext ?_ ?_ <;> · simp only; field_simp; ring

/-- The integrand of an exact entry. -/
theorem exact_eq (op : Operator R) (T : (P M d a i : Nat) → ℝ × ℝ → ℝ) (hop : Contracts op T) (hpos : PositionOnly op) {V : Type}
    (near : V → V → Bool) (corner : Nat → Nat → V) (P M : Nat) (hP : 0 < P) (t : Mesh.Tree ℝ) (ht : initElementTree near corner P M = some t)
    (geo : Nat → ℝ × ℝ → V3 × V3 × V3) (hgeo : RegularPatches P geo) (p : Nat) (jr : Nat → ℝ) (jk : Nat → R) (a b : Addr) (n1 : IsNode P M a)
    (n2 : IsNode P M b) (i j : Nat) (hi : i < op.vd) (hj : j < op.vd) (r c : Nat) (hr : r < (p + 1) * (p + 1)) (hc : c < (p + 1) * (p + 1)) :
    exactEntry t op (SuperSpace.map2surface t geo) p M jr jk a b (i * ((p + 1) * (p + 1)) + r) (j * ((p + 1) * (p + 1)) + c) =
      Interpol.integral4 fun ξ η => algebraMap ℝ R (getH t a * getH t b) *
        ∑ α ∈ range op.nc, ∑ β ∈ range op.nc, algebraMap ℝ R (T p M i α r ξ * T p M j β c η) *
          op.fmm (SuperSpace.map2surface t geo a ξ 1) (SuperSpace.map2surface t geo b η 1) (i * op.nc + α) (j * op.nc + β) := by
  unfold exactEntry Interpol.integral4
  refine Interpol.int_congr _ _ fun x hx => Interpol.int_congr _ _ fun y hy => Interpol.int_congr _ _ fun u hu => Interpol.int_congr _ _ fun v hv => ?_
  have hreg := node_regular near corner P M hP t ht geo hgeo M le_rfl
  rw [(hop jr jk p M (SuperSpace.map2surface t geo a (x, y) (getH t a)) (SuperSpace.map2surface t geo b (u, v) (getH t b)) (fun _ _ => 0)
    (hreg a n1 _ ⟨hx.1, hx.2, hy.1, hy.2⟩ _) (hreg b n2 _ ⟨hu.1, hu.2, hv.1, hv.2⟩ _)).1 i hi j hj r hr c hc, zero_add]
  congr 1
  refine sum_congr rfl fun α _ => sum_congr rfl fun β _ => ?_
  have e := hpos (SuperSpace.map2surface t geo a (x, y) (getH t a)) (SuperSpace.map2surface t geo b (u, v) (getH t b)) (x, y) (u, v) 1 1
    (i * op.nc + α) (j * op.nc + β)
  simp only [SuperSpace.map2surface] at e ⊢
  rw [← e]
  ring

/-- The integrand of the entries, without weights. -/
noncomputable def pulled (op : Operator R) (T : (P M d a i : Nat) → ℝ × ℝ → ℝ) (t : Mesh.Tree ℝ) (geo : Nat → ℝ × ℝ → V3 × V3 × V3) (p M : Nat)
    (a b : Addr) (i j r c : Nat) (ξ η : ℝ × ℝ) : R :=
  algebraMap ℝ R (getH t a * getH t b) * ∑ α ∈ range op.nc, ∑ β ∈ range op.nc, algebraMap ℝ R (T p M i α r ξ * T p M j β c η) *
    op.fmm (SuperSpace.map2surface t geo a ξ 1) (SuperSpace.map2surface t geo b η 1) (i * op.nc + α) (j * op.nc + β)

theorem quadSquare_mul (Q : Quad1 ℝ) (c : R) (g : ℝ × ℝ → R) : c * quadSquare Q g = quadSquare Q fun ξ => c * g ξ := by
  unfold quadSquare
  rw [mul_sum]
  refine sum_congr rfl fun q _ => ?_
  rw [mul_sum]
  exact sum_congr rfl fun q' _ => by ring

/-- The quadrature of the integrand as the quadrature of a smooth function. -/
theorem direct_quad (op : Operator R) (T : (P M d a i : Nat) → ℝ × ℝ → ℝ) (hop : Contracts op T) (hpos : PositionOnly op) {V : Type}
    (near : V → V → Bool) (corner : Nat → Nat → V) (P M : Nat) (hP : 0 < P) (t : Mesh.Tree ℝ) (ht : initElementTree near corner P M = some t)
    (geo : Nat → ℝ × ℝ → V3 × V3 × V3) (hgeo : RegularPatches P geo) (Q : Quad1 ℝ) (hQ : ∀ q < Q.size, 0 ≤ Q.xi q ∧ Q.xi q ≤ 1) (p : Nat)
    (jr : Nat → ℝ) (jk : Nat → R) (a b : Addr) (n1 : IsNode P M a)
    (n2 : IsNode P M b) (i j : Nat) (hi : i < op.vd) (hj : j < op.vd) (r c : Nat) (hr : r < (p + 1) * (p + 1)) (hc : c < (p + 1) * (p + 1)) :
    directEntry t op (SuperSpace.map2surface t geo) Q p M jr jk a b (i * ((p + 1) * (p + 1)) + r) (j * ((p + 1) * (p + 1)) + c) =
      quadSquare Q fun ξ => quadSquare Q fun η => pulled op T t geo p M a b i j r c ξ η := by
  rw [Compress.direct_eq near corner P M hP t ht geo hgeo op T hop hpos Q hQ p jr jk a b a b n1 n2 rfl rfl i j hi hj r c hr hc, quadSquare_mul]
  simp only [quadSquare_mul, inCluster_self]
  rfl

theorem pulled_smooth (op : Operator R) (hk : Interpol.SmoothKernel op) (hpos : PositionOnly op) (T : (P M d a i : Nat) → ℝ × ℝ → ℝ)
    (hT : ∀ p M d a i, ContDiff ℝ ∞ (T p M d a i)) {V : Type} (near : V → V → Bool) (corner : Nat → Nat → V)
    (P M : Nat) (hP : 0 < P) (t : Mesh.Tree ℝ) (ht : initElementTree near corner P M = some t) (geo : Nat → ℝ × ℝ → V3 × V3 × V3)
    (hreg : RegularPatches P geo) (hsm : SmoothPatches P geo) (p : Nat) (a b : Addr) (n1 : IsNode P M a) (n2 : IsNode P M b)
    (hs : Separated t geo a b) (i j r c : Nat) : SmoothPair (pulled op T t geo p M a b i j r c) := by
  unfold pulled
  exact pair_const _ (pair_sum _ _ fun α _ => pair_sum _ _ fun β _ => pair_mul (hT _ _ _ _ _) (hT _ _ _ _ _)
    (pair_smooth op hk hpos near corner P M hP t ht geo hreg hsm M M le_rfl le_rfl a b n1 n2 hs _ _))

theorem absQuad_two (Q : Quad1 ℝ) (hP : Interpol.Positive Q 2) (g : ℝ × ℝ → ℝ) (A : ℝ) (hA : 0 ≤ A) (hg : ∀ s, ClosedSquare s → |g s| ≤ A) :
    0 ≤ absQuad Q g ∧ absQuad Q g ≤ 4 * A := by
  unfold absQuad
  have h0 : 0 ≤ ∑ q ∈ range Q.size, Q.w q := sum_nonneg fun q hq => hP.weights q (mem_range.1 hq)
  refine ⟨sum_nonneg fun q _ => sum_nonneg fun q' _ => by positivity, ?_⟩
  calc ∑ q ∈ range Q.size, ∑ q' ∈ range Q.size, |Q.w q * Q.w q'| * |g (Q.xi q, Q.xi q')| ≤
      ∑ q ∈ range Q.size, ∑ q' ∈ range Q.size, Q.w q * Q.w q' * A := by
        refine sum_le_sum fun q hq => sum_le_sum fun q' hq' => ?_
        have hq := mem_range.1 hq
        have hq' := mem_range.1 hq'
        have := mul_nonneg (hP.weights q hq) (hP.weights q' hq')
        rw [abs_of_nonneg this]
        exact mul_le_mul_of_nonneg_left (hg _ ⟨(hP.nodes q hq).1, (hP.nodes q hq).2, (hP.nodes q' hq').1, (hP.nodes q' hq').2⟩) this
    _ = (∑ q ∈ range Q.size, Q.w q) * (∑ q ∈ range Q.size, Q.w q) * A := by simp only [← sum_mul, ← mul_sum]
    _ ≤ 2 * 2 * A := mul_le_mul_of_nonneg_right (mul_le_mul hP.total hP.total h0 (by norm_num)) hA
    _ = 4 * A := by ring

theorem rate_mono {x y C : ℝ} {k : Nat} (hx : 0 < x) (h : x ≤ 2 * y) (hC : 0 ≤ C) : C / y ^ k ≤ C * 2 ^ k / x ^ k := by
  have hy : 0 < y := by linarith
  rw [div_le_div_iff₀ (pow_pos hy k) (pow_pos hx k), mul_assoc, ← mul_pow]
  exact mul_le_mul_of_nonneg_left (pow_le_pow_left₀ hx.le h k) hC

/-- The general theorem. -/
theorem rapid (es : EigenSolver) (hes : SolverCorrect es) (op : Operator R) (T : (P M d a i : Nat) → ℝ × ℝ → ℝ) (hop : Contracts op T)
    (hpos : PositionOnly op) (hk : Interpol.SmoothKernel op) (hT : ∀ p M d a i, ContDiff ℝ ∞ (T p M d a i)) : RapidlyAccurate es op T := by
  intro near corner P M hP geo hgeo hsm t ht p κ
  -- quadrature
  obtain ⟨K1, hK10, hK1⟩ := Compress.fin_bound ({x : Addr × Addr × Nat × Nat × Nat × Nat | (∃ l ≤ M, IsNode P l x.1) ∧ (∃ l ≤ M, IsNode P l x.2.1) ∧
      x.2.2.1 < op.vd ∧ x.2.2.2.1 < op.vd ∧ x.2.2.2.2.1 < (p + 1) * (p + 1) ∧ x.2.2.2.2.2 < (p + 1) * (p + 1)})
    ((((Compress.nodes_finite P M).prod ((Compress.nodes_finite P M).prod ((Set.finite_lt_nat _).prod ((Set.finite_lt_nat _).prod
      ((Set.finite_lt_nat _).prod (Set.finite_lt_nat _))))))).subset fun x hx => ⟨hx.1, hx.2.1, hx.2.2.1, hx.2.2.2.1, hx.2.2.2.2.1, hx.2.2.2.2.2⟩)
    (fun x K => IsNode P M x.1 → IsNode P M x.2.1 → Separated t geo x.1 x.2.1 → ∀ order i, i ≤ order →
      ‖quadSquare (gaussLegendre es order i) (fun y => quadSquare (gaussLegendre es order i) fun z =>
        pulled op T t geo p M x.1 x.2.1 x.2.2.1 x.2.2.2.1 x.2.2.2.2.1 x.2.2.2.2.2 y z) -
      Interpol.integral4 (pulled op T t geo p M x.1 x.2.1 x.2.2.1 x.2.2.2.1 x.2.2.2.2.1 x.2.2.2.2.2)‖ ≤ K / ((i : ℝ) + 1) ^ κ)
    (fun x K K' hKK h n1 n2 hs order i hi => (h n1 n2 hs order i hi).trans (div_le_div_of_nonneg_right hKK (by positivity)))
    (by
      rintro ⟨a, b, d, e, r, c⟩ -
      by_cases h : IsNode P M a ∧ IsNode P M b ∧ Separated t geo a b
      · obtain ⟨n1, n2, hs⟩ := h
        obtain ⟨C, -, hC⟩ := gauss_rate es hes _ (pulled_smooth op hk hpos T hT near corner P M hP t ht geo hgeo hsm p a b n1 n2 hs d e r c) κ
        exact ⟨C, fun _ _ _ => hC⟩
      · exact ⟨0, fun n1 n2 hs => absurd ⟨n1, n2, hs⟩ h⟩)
  have part1 : ∀ a b, IsNode P M a → IsNode P M b → Separated t geo a b → ∀ order i, i ≤ order → ∀ (jr : Nat → ℝ) (jk : Nat → R),
      ∀ d < op.vd, ∀ e < op.vd, ∀ r < (p + 1) * (p + 1), ∀ c < (p + 1) * (p + 1),
      ‖directEntry t op (SuperSpace.map2surface t geo) (gaussLegendre es order i) p M jr jk a b (d * ((p + 1) * (p + 1)) + r)
          (e * ((p + 1) * (p + 1)) + c) -
        exactEntry t op (SuperSpace.map2surface t geo) p M jr jk a b (d * ((p + 1) * (p + 1)) + r) (e * ((p + 1) * (p + 1)) + c)‖ ≤
      K1 / ((i : ℝ) + 1) ^ κ := by
    intro a b n1 n2 hs order i hi jr jk d hd e he r hr c hc
    rw [direct_quad op T hop hpos near corner P M hP t ht geo hgeo _ (gauss_facts es hes order i hi).1.nodes p jr jk a b n1 n2 d e hd he r c hr hc,
      exact_eq op T hop hpos near corner P M hP t ht geo hgeo p jr jk a b n1 n2 d e hd he r c hr hc]
    exact hK1 (a, b, d, e, r, c) ⟨⟨M, le_rfl, n1⟩, ⟨M, le_rfl, n2⟩, hd, he, hr, hc⟩ n1 n2 hs order i hi
  -- interpolation
  obtain ⟨K2, hK20, hK2⟩ := Compress.fin_bound ({x : Addr × Addr × Nat × Nat | (∃ l ≤ M, IsNode P l x.1) ∧ (∃ l ≤ M, IsNode P l x.2.1) ∧
      x.2.2.1 < op.vd * op.nc ∧ x.2.2.2 < op.vd * op.nc})
    ((((Compress.nodes_finite P M).prod ((Compress.nodes_finite P M).prod ((Set.finite_lt_nat _).prod (Set.finite_lt_nat _))))).subset
      fun x hx => ⟨hx.1, hx.2.1, hx.2.2.1, hx.2.2.2⟩)
    (fun x K => Separated t geo x.1 x.2.1 → ∀ n : Nat, 0 < n → ∀ y z, ClosedSquare y → ClosedSquare z → ‖interpolate (chebychevRoots n) n
        (fun y z => op.fmm (SuperSpace.map2surface t geo x.1 y 1) (SuperSpace.map2surface t geo x.2.1 z 1) x.2.2.1 x.2.2.2) y z -
      op.fmm (SuperSpace.map2surface t geo x.1 y 1) (SuperSpace.map2surface t geo x.2.1 z 1) x.2.2.1 x.2.2.2‖ ≤ K / (n : ℝ) ^ κ)
    (fun x K K' hKK h hs n hn y z hy hz => (h hs n hn y z hy hz).trans (div_le_div_of_nonneg_right hKK (by positivity)))
    (by
      rintro ⟨c1, c2, k, l⟩ ⟨⟨l1, hl1, i1⟩, ⟨l2, hl2, i2⟩, -, -⟩
      by_cases h : Separated t geo c1 c2
      · obtain ⟨C, -, hC⟩ := Interpol.interp_rate _ (pair_smooth op hk hpos near corner P M hP t ht geo hgeo hsm l1 l2 hl1 hl2 c1 c2 i1 i2 h k l) κ
        exact ⟨C, fun _ n hn y z hy hz => hC n hn (Compress.cheb_facts n).1 (Compress.cheb_facts n).2 y z hy hz⟩
      · exact ⟨0, fun h' => absurd h' h⟩)
  -- the shape functions
  obtain ⟨A, hA0, hA⟩ := Compress.fin_bound ({x : Nat × Nat × Nat | x.1 < op.vd ∧ x.2.1 < op.nc ∧ x.2.2 < (p + 1) * (p + 1)})
    (((Set.finite_lt_nat _).prod ((Set.finite_lt_nat _).prod (Set.finite_lt_nat _))).subset fun x hx => ⟨hx.1, hx.2.1, hx.2.2⟩)
    (fun x A => ∀ s, ClosedSquare s → |T p M x.1 x.2.1 x.2.2 s| ≤ A) (fun x A A' hAA h s hs => (h s hs).trans hAA)
    (fun x _ => Compress.poly_bounded _ (hT p M x.1 x.2.1 x.2.2).continuous)
  have hh : ∀ a, 0 ≤ getH t a ∧ getH t a ≤ 1 := fun a => by
    unfold getH
    exact ⟨by positivity, by rw [div_le_one (by positivity)]; exact one_le_pow₀ (by norm_num)⟩
  set B := K2 * (op.nc * op.nc * (4 * A * (4 * A))) + K1 * 2 ^ κ with hB
  have hB1 : 0 ≤ K2 * (op.nc * op.nc * (4 * A * (4 * A))) := by positivity
  refine ⟨K1 + B, ?_, ?_⟩
  · intro a b n1 n2 hs order i hi jr jk d hd e he r hr c hc
    refine (part1 a b n1 n2 hs order i hi jr jk d hd e he r hr c hc).trans (div_le_div_of_nonneg_right ?_ (by positivity))
    have : 0 ≤ K1 * 2 ^ κ := by positivity
    linarith
  · intro n hn order hord l hl c1 c2 i1 i2 hs L1 L2 hL1 hL2 a ha b hb jr jk d hd e he r hr c hc
    obtain ⟨gp, -⟩ := gauss_facts es hes order (gaussIndex n p) hord
    obtain ⟨n1, p1, s1⟩ := Compress.inCluster_square near corner P M hP t ht l hl c1 i1 L1 hL1 a ha
    obtain ⟨n2, p2, s2⟩ := Compress.inCluster_square near corner P M hP t ht l hl c2 i2 L2 hL2 b hb
    have hs' : Separated t geo a b := by
      intro y z hy hz
      have := hs _ _ (s1 y hy) (s2 z hz)
      rw [map2surface_cluster t geo c1 a p1, map2surface_cluster t geo c2 b p2] at this
      exact this
    have e1 := part1 a b n1 n2 hs' order (gaussIndex n p) hord jr jk d hd e he r hr c hc
    have e2 := C87_entry near corner P M hP t ht geo hgeo op T hop hpos (gaussLegendre es order (gaussIndex n p)) gp.nodes (chebychevRoots n) n p jr jk
      l hl c1 c2 i1 i2 L1 L2 hL1 hL2 a b ha hb (K2 / (n : ℝ) ^ κ)
      (fun y z hy hz k hk l' hl' => hK2 (c1, c2, k, l') ⟨⟨l, hl, i1⟩, ⟨l, hl, i2⟩, hk, hl'⟩ hs n hn y z hy hz) d e hd he r c hr hc
    have hsum0 : 0 ≤ ∑ α ∈ range op.nc, ∑ β ∈ range op.nc, absQuad (gaussLegendre es order (gaussIndex n p)) (T p M d α r) *
        absQuad (gaussLegendre es order (gaussIndex n p)) (T p M e β c) :=
      sum_nonneg fun α hα => sum_nonneg fun β hβ => mul_nonneg
        (absQuad_two _ gp _ A hA0 (hA (d, α, r) ⟨hd, mem_range.1 hα, hr⟩)).1 (absQuad_two _ gp _ A hA0 (hA (e, β, c) ⟨he, mem_range.1 hβ, hc⟩)).1
    have hsum : ∑ α ∈ range op.nc, ∑ β ∈ range op.nc, absQuad (gaussLegendre es order (gaussIndex n p)) (T p M d α r) *
        absQuad (gaussLegendre es order (gaussIndex n p)) (T p M e β c) ≤ op.nc * op.nc * (4 * A * (4 * A)) := by
      calc _ ≤ ∑ α ∈ range op.nc, ∑ β ∈ range op.nc, 4 * A * (4 * A) := by
            refine sum_le_sum fun α hα => sum_le_sum fun β hβ => ?_
            have q1 := absQuad_two _ gp _ A hA0 (hA (d, α, r) ⟨hd, mem_range.1 hα, hr⟩)
            have q2 := absQuad_two _ gp _ A hA0 (hA (e, β, c) ⟨he, mem_range.1 hβ, hc⟩)
            exact mul_le_mul q1.2 q2.2 q2.1 (by positivity)
        _ = _ := by simp only [sum_const, card_range, nsmul_eq_mul]; ring
    have hprod := le_trans (mul_le_of_le_one_left hsum0 (mul_le_one₀ (hh a).2 (hh b).1 (hh b).2)) hsum
    have n0 : (0 : ℝ) < n := by exact_mod_cast hn
    have e2' := e2.trans (mul_le_mul_of_nonneg_left hprod (by positivity))
    have gi : (n : ℝ) ≤ 2 * ((gaussIndex n p : ℝ) + 1) := by
      have : n ≤ 2 * (gaussIndex n p + 1) := by unfold gaussIndex; omega
      exact_mod_cast this
    have e1' := e1.trans (rate_mono (k := κ) n0 gi hK10)
    have tri := norm_sub_le_norm_sub_add_norm_sub (farEntry t op (SuperSpace.map2surface t geo) (gaussLegendre es order (gaussIndex n p)) (chebychevRoots n) n
      (T p M) c1 c2 a b d e r c) (directEntry t op (SuperSpace.map2surface t geo) (gaussLegendre es order (gaussIndex n p)) p M jr jk a b
      (d * ((p + 1) * (p + 1)) + r) (e * ((p + 1) * (p + 1)) + c)) (exactEntry t op (SuperSpace.map2surface t geo) p M jr jk a b
      (d * ((p + 1) * (p + 1)) + r) (e * ((p + 1) * (p + 1)) + c))
    refine tri.trans ((add_le_add e2' e1').trans ?_)
    rw [div_mul_eq_mul_div, ← add_div]
    refine div_le_div_of_nonneg_right ?_ (by positivity)
    rw [hB]; linarith

end Smooth
open Smooth

/-- C88: on smooth surfaces the entries of every boundary integral operator of the Laplace, Helmholtz and Maxwell equations are computed
accurately: the error of the quadrature and of the compression decreases faster than every power of the number of points. -/
theorem C88_operators (es : EigenSolver) (hes : SolverCorrect es) (k : ℂ) :
    RapidlyAccurate es Operator.laplaceSL valueT ∧ RapidlyAccurate es Operator.laplaceDL valueT ∧
    RapidlyAccurate es Operator.laplaceADL valueT ∧ RapidlyAccurate es Operator.laplaceHyp gradT ∧
    RapidlyAccurate es (Operator.helmholtzSL k) valueT ∧ RapidlyAccurate es (Operator.helmholtzDL k) valueT ∧
    RapidlyAccurate es (Operator.helmholtzADL k) valueT ∧ RapidlyAccurate es (Operator.helmholtzHyp k) valueGradT ∧
    RapidlyAccurate es (Operator.maxwellSL k) divT := by
  obtain ⟨c1, c2, c3, c4, c5, c6⟩ := C52_scalar k
  obtain ⟨q1, q2, q3, q4, q5, q6, q7, q8, q9⟩ := C63_position_only k
  exact ⟨rapid es hes _ _ c1 q1 Interpol.sk_laplaceSL valueT_smooth, rapid es hes _ _ c2 q2 Interpol.sk_laplaceDL valueT_smooth,
    rapid es hes _ _ c3 q3 Interpol.sk_laplaceADL valueT_smooth, rapid es hes _ _ C52_laplaceHyp q4 Interpol.sk_laplaceHyp gradT_smooth,
    rapid es hes _ _ c4 q5 (Interpol.sk_helmholtzSL k) valueT_smooth, rapid es hes _ _ c5 q6 (Interpol.sk_helmholtzDL k) valueT_smooth,
    rapid es hes _ _ c6 q7 (Interpol.sk_helmholtzADL k) valueT_smooth,
    rapid es hes _ _ (C52_helmholtzHyp k) q8 (Interpol.sk_helmholtzHyp k) valueGradT_smooth,
    rapid es hes _ _ (C52_maxwell k) q9 (Interpol.sk_maxwellSL k) divT_smooth⟩

/-- C88: the compressed matrices of these operators.  If admissible clusters have no common points, then there are constants `C κ`, which
do not depend on the number `n` of interpolation points, such that for every order of the assembly tasks and all schedules the product with
the assembled H2-matrix is `res + alpha * Tᵀ A T * rhs`, where every entry of `A` is the entry of the dense assembly or differs from the
exact integral by at most `C κ / n ^ κ` for every `κ`. -/
theorem C88_product (es : EigenSolver) (op : Operator R) (hvd : 0 < op.vd) (hnc : 0 < op.nc) (T : (P M d a i : Nat) → ℝ × ℝ → ℝ)
    (mom : MomentEnv → (p cl r np : Nat) → List (EMat ℝ)) (hmom : MomentsFor op.vd op.nc T mom) (hrap : RapidlyAccurate es op T)
    (near : V3 → V3 → Bool) (corner : Nat → Nat → V3) (P M : Nat) (hP : 0 < P)
    (geo : Nat → ℝ × ℝ → V3 × V3 × V3) (hgeo : RegularPatches P geo) (hsm : SmoothPatches P geo)
    (t : Mesh.Tree ℝ) (ht : initElementTree near corner P M = some t) (B : Addr → Ball V3)
    (hB : ∀ l ≤ M, ∀ a, IsNode P l a → 0 ≤ (B a).rad) (eta : ℝ)
    (hsep : ∀ l ≤ M, ∀ c1 c2, IsNode P l c1 → IsNode P l c2 →
      max (B c1).rad (B c2).rad < eta * (‖(B c1).mid - (B c2).mid‖ - (B c1).rad - (B c2).rad) → Separated t geo c1 c2)
    (minLevel : Int) (hm : 0 ≤ minLevel) (p : Nat) (trans : EMat R) (htr : trans.rows = op.vd * ((p + 1) * (p + 1) * t.nElements)) (jr : Nat → ℝ)
    (jk : Nat → R) :
    ∃ C : Nat → ℝ, ∀ (pair : Addr → Addr → Option (Nat → Nat → R)) (v : Addr → Addr → Nat → Nat → R),
      (∀ a b, IsNode P M a → IsNode P M b → pair a b = some (v a b)) → ∀ (E : MomentEnv) (n : Nat), 0 < n → E.pts n = chebychevRoots n →
      ∀ order, gaussIndex n p ≤ order → E.GL (gaussIndex n p) = gaussLegendre es order (gaussIndex n p) →
      ∃ A : Nat → Nat → R,
      (∀ a b, IsNode P M a → IsNode P M b → ∀ i < op.vd, ∀ j < op.vd, ∀ r < (p + 1) * (p + 1), ∀ c < (p + 1) * (p + 1),
        let entry := A (i * ((p + 1) * (p + 1) * t.nElements) + ((p + 1) * (p + 1) * t.id a + r))
          (j * ((p + 1) * (p + 1) * t.nElements) + ((p + 1) * (p + 1) * t.id b + c))
        entry = v a b (i * ((p + 1) * (p + 1)) + r) (j * ((p + 1) * (p + 1)) + c) ∨
        ∀ κ : Nat, ‖entry - exactEntry t op (SuperSpace.map2surface t geo) p M jr jk a b (i * ((p + 1) * (p + 1)) + r)
          (j * ((p + 1) * (p + 1)) + c)‖ ≤ C κ / (n : ℝ) ^ κ) ∧
      ∀ (junk : Nat → Nat → R) (junkE junkT : Nat → Nat → ℝ) (M0 : LeafMem R) (order : List Nat),
        order.Perm (List.range (BlockCluster.leafPointers (BlockCluster.initBlockClusterTree t B eta minLevel)).length) →
        ∃ H, initH2Matrix junk junkE junkT M0 op t B eta minLevel p trans (SuperSpace.map2surface t geo) pair E mom n order = some H ∧
        ∀ (junk : Nat → Nat → R) (S : Schedules H) (rhs res : EMat R) (alpha : R),
          rhs.rows = trans.cols → res.rows = trans.cols → res.cols = rhs.cols →
          ∃ res', run junk H S rhs res alpha = some res' ∧ res'.rows = res.rows ∧ res'.cols = res.cols ∧
          ∀ i < res.rows, ∀ c < res.cols, res'.at' i c = res.at' i c + alpha * ∑ r ∈ range trans.rows,
            ∑ k ∈ range trans.rows, ∑ d ∈ range trans.cols, trans.at' r i * A r k * trans.at' k d * rhs.at' d c := by
  have hC := fun κ => (hrap near corner P M hP geo hgeo hsm t ht p κ).imp fun _ h => h.2
  choose C hC using hC
  refine ⟨C, fun pair v hv E n hn hx order hord hG => ?_⟩
  obtain ⟨A, h1, h2⟩ := C63_product near corner P M hP t ht op hvd hnc T mom hmom B hB eta minLevel hm p trans
    htr (SuperSpace.map2surface t geo) pair v hv E n hn (by rw [hx]; exact (Compress.cheb_facts n).1)
  refine ⟨A, fun a b ha hb i hi j hj r hr c hc' => ?_, h2⟩
  rcases h1 a b ha hb i hi j hj r hr c hc' with h | ⟨l, hl, c1, c2, i1, i2, ⟨L1, hL1, ha1⟩, ⟨L2, hL2, hb2⟩, hadm, he'⟩
  · exact Or.inl h
  · refine Or.inr fun κ => ?_
    rw [he', hx, hG]
    exact hC κ n hn order hord l hl c1 c2 i1 i2 (hsep l hl c1 c2 i1 i2 hadm) L1 L2 hL1 hL2 a ha1 b hb2 jr jk i hi j hj r hr c hc'

namespace Smooth

/-- A curved patch: the graph of `x ^ 2` over the unit square. -/
noncomputable def bowl : Nat → ℝ × ℝ → V3 × V3 × V3 := fun _ x =>
  (WithLp.toLp 2 ![x.1, x.2, x.1 ^ 2], WithLp.toLp 2 ![1, 0, 2 * x.1], WithLp.toLp 2 ![0, 1, 0])

theorem bowl_reg : RegularPatches 1 bowl := by
  intro p _ s _ h
  have := congrFun (congrArg WithLp.ofLp h) 2
  simp [bowl, cross3] at this

theorem v3_smooth {f g h : ℝ × ℝ → ℝ} (hf : ContDiff ℝ ∞ f) (hg : ContDiff ℝ ∞ g) (hh : ContDiff ℝ ∞ h) :
    ContDiff ℝ ∞ fun x => (WithLp.toLp 2 ![f x, g x, h x] : V3) := by
  rw [contDiff_euclidean]
  intro i
  fin_cases i
  · exact hf
  · exact hg
  · exact hh

theorem bowl_smooth : SmoothPatches 1 bowl := by
  intro p _
  refine ⟨bowl p, fun x _ => ?_, fun _ _ => rfl⟩
  unfold bowl
  exact ((v3_smooth (by fun_prop) (by fun_prop) (by fun_prop)).prodMk
    ((v3_smooth (by fun_prop) (by fun_prop) (by fun_prop)).prodMk (v3_smooth (by fun_prop) (by fun_prop) (by fun_prop)))).contDiffAt

end Smooth

/-- The hypotheses are met: the Maxwell single layer operator on a curved patch with sixteen elements; the entries of opposite corners. -/
example (k : ℂ) (κ : Nat) : ∃ (es : EigenSolver) (t : Mesh.Tree ℝ) (C : ℝ), SolverCorrect es ∧
    initElementTree (nearBy (1 / 1000)) (fun q j => (bowl q (cornerPoint j)).1) 1 2 = some t ∧ Separated t bowl (0, [0, 0]) (0, [2, 2]) ∧
    ∀ n : Nat, 0 < n → gaussIndex n 2 ≤ 50 → ∀ i < 2, ∀ j < 2, ∀ r < 9, ∀ c < 9,
    ‖farEntry t (Operator.maxwellSL k) (SuperSpace.map2surface t bowl) (gaussLegendre es 50 (gaussIndex n 2)) (chebychevRoots n) n (divT 2 2)
        (0, [0, 0]) (0, [2, 2]) (0, [0, 0]) (0, [2, 2]) i j r c -
      exactEntry t (Operator.maxwellSL k) (SuperSpace.map2surface t bowl) 2 2 (fun _ => 0) (fun _ => 0)
        (0, [0, 0]) (0, [2, 2]) (i * 9 + r) (j * 9 + c)‖ ≤ C / (n : ℝ) ^ κ := by
  obtain ⟨es, hes⟩ := solver_exists
  obtain ⟨t, h1, h2, -⟩ := tree_facts (K := ℝ) (nearBy (1 / 1000)) (fun q j => (bowl q (cornerPoint j)).1) 1 2 (by norm_num)
  obtain ⟨C, -, hC⟩ := (C88_operators es hes k).2.2.2.2.2.2.2.2 _ _ 1 2 (by norm_num) bowl bowl_reg bowl_smooth t h1 2 κ
  obtain ⟨t', e1, e2⟩ := C25_cluster_range (K := ℝ) (nearBy (1 / 1000)) (fun q j => (bowl q (cornerPoint j)).1) 1 2 (by norm_num)
  obtain rfl : t = t' := Option.some.inj (h1.symm.trans e1)
  have i1 : IsNode 1 2 (0, [0, 0]) := ⟨by norm_num, rfl, by simp⟩
  have i2 : IsNode 1 2 (0, [2, 2]) := ⟨by norm_num, rfl, by simp⟩
  obtain ⟨L1, u1, u2, -⟩ := e2 2 _ le_rfl i1
  obtain ⟨L2, v1, v2, -⟩ := e2 2 _ le_rfl i2
  have hsep : Separated t bowl (0, [0, 0]) (0, [2, 2]) := by
    intro y z hy hz h
    obtain ⟨-, v2, v3, v4⟩ := h2 2 le_rfl _ (mem_leaves.2 i1)
    obtain ⟨-, w2, w3, w4⟩ := h2 2 le_rfl _ (mem_leaves.2 i2)
    simp only [SuperSpace.map2surface, getH, v2, v3, v4, w2, w3, w4, posX, posY, List.length_cons, List.length_nil] at h
    have := congrFun (congrArg WithLp.ofLp h) 0
    norm_num [bowl] at this
    linarith [hy.2.1, hz.1]
  refine ⟨es, t, C, hes, h1, hsep, fun n hn hg i hi j hj r hr c hc => ?_⟩
  exact hC n hn 50 hg 2 le_rfl _ _ i1 i2 hsep L1 L2 u1 v1 (0, [0, 0]) ((u2 _).2 ⟨[], rfl, by simp, rfl⟩) (0, [2, 2])
    ((v2 _).2 ⟨[], rfl, by simp, rfl⟩) (fun _ => 0) (fun _ => 0) i hi j hj r hr c hc

end Bembel.Props
