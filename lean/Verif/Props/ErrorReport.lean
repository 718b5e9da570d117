import Verif.Spec.ErrorReport
import Verif.Props.L2Error
import Verif.Props.ReactionDiffusion
import Verif.Props.BeltramiSystem
/-! # C95: reported L2 errors -/

namespace Bembel.Props
open Finset Mesh Spec Util SuperSpace MeasureTheory FunctionEval
open scoped ContDiff

namespace ErrorReport
open Reaction

theorem sqrt_le (a b e : ℝ) (he : 0 ≤ e) (h : a - b ≤ e ^ 2) : Real.sqrt a ≤ Real.sqrt b + e := by
  have s := Real.sqrt_nonneg b
  rw [Real.sqrt_le_iff]
  refine ⟨by positivity, ?_⟩
  rcases le_total b 0 with hb | hb
  · rw [Real.sqrt_eq_zero_of_nonpos hb]; nlinarith
  · nlinarith [Real.sq_sqrt hb]

/-- The square root is Hölder continuous. -/
theorem sqrt_sub (a b e : ℝ) (he : 0 ≤ e) (h : |a - b| ≤ e ^ 2) : |Real.sqrt a - Real.sqrt b| ≤ e := by
  obtain ⟨h1, h2⟩ := abs_le.1 h
  have := sqrt_le a b e he h2
  have := sqrt_le b a e he (by linarith)
  rw [abs_le]
  constructor <;> linarith

theorem double_bound (n : Nat) (F : Nat → Nat → ℝ) (e : ℝ) (h : ∀ c < n, ∀ d < n, |F c d| ≤ e) :
    |∑ c ∈ range n, ∑ d ∈ range n, F c d| ≤ n ^ 2 * e := by
  refine (abs_sum_le_sum_abs _ _).trans ((sum_le_sum (g := fun _ => (n : ℝ) * e) fun c hc => (abs_sum_le_sum_abs _ _).trans
    ((sum_le_sum (g := fun _ => e) fun d hd => h c (mem_range.1 hc) d (mem_range.1 hd)).trans ?_)).trans ?_)
  · rw [sum_const, card_range, nsmul_eq_mul]
  · rw [sum_const, card_range, nsmul_eq_mul, sq, mul_assoc]

section
variable (near : V3 → V3 → Bool) (corner : Nat → Nat → V3) (P M : Nat) (hP : 0 < P) (geo : Nat → ℝ × ℝ → V3 × V3 × V3)
    (hreg : RegularPatches P geo) (hsm : SmoothPatches P geo) (t : Mesh.Tree ℝ) (ht : initElementTree near corner P M = some t) (p : Nat) (T : EMat ℝ)
    (g : V3 → ℝ)

/-- The ansatz functions and the data. -/
noncomputable def part (c : Nat) (a : Addr) (s : SurfPt) : ℝ := if c < T.cols then valueAt ⟨t, p, geo, T⟩ (unitDofs c) a s.xi else g s.f

/-- The coefficients of the error. -/
noncomputable def coef (x : Nat → ℝ) (c : Nat) : ℝ := if c < T.cols then x c else -1

theorem error_expand (x : Nat → ℝ) (a : Addr) (s : SurfPt) :
    ∑ c ∈ range (T.cols + 1), coef T x c * part geo t p T g c a s = valueAt ⟨t, p, geo, T⟩ x a s.xi - g s.f := by
  rw [sum_range_succ, value_expand geo t p T x, sum_congr rfl (g := fun c => x c * valueAt ⟨t, p, geo, T⟩ (unitDofs c) a s.xi) fun c hc => by
    rw [coef, part, if_pos (mem_range.1 hc), if_pos (mem_range.1 hc)]]
  simp [coef, part]
  ring

/-- The products of two parts. -/
noncomputable def prod (c d : Nat) (a : Addr) (s : SurfPt) : ℝ := ‖cross3 s.dx s.dy‖ * (part geo t p T g c a s * part geo t p T g d a s)

theorem square_expand (x : Nat → ℝ) (a : Addr) (s : SurfPt) : ‖cross3 s.dx s.dy‖ * (g s.f - valueAt ⟨t, p, geo, T⟩ x a s.xi) ^ 2 =
    ∑ c ∈ range (T.cols + 1), coef T x c * ∑ d ∈ range (T.cols + 1), coef T x d * prod geo t p T g c d a s := by
  rw [show (g s.f - valueAt ⟨t, p, geo, T⟩ x a s.xi) ^ 2 = (valueAt ⟨t, p, geo, T⟩ x a s.xi - g s.f) * (valueAt ⟨t, p, geo, T⟩ x a s.xi - g s.f) by ring,
    ← error_expand, sum_mul, mul_sum]
  refine sum_congr rfl fun c _ => ?_
  rw [mul_sum, mul_sum, mul_sum]
  exact sum_congr rfl fun d _ => by unfold prod; ring

theorem quad_expand (Q : Cubature ℝ) (x : Nat → ℝ) :
    surfaceQuad t geo Q (leaves P M) (fun a s => ‖cross3 s.dx s.dy‖ * (g s.f - valueAt ⟨t, p, geo, T⟩ x a s.xi) ^ 2) =
      ∑ c ∈ range (T.cols + 1), ∑ d ∈ range (T.cols + 1), coef T x c * coef T x d * surfaceQuad t geo Q (leaves P M) (prod geo t p T g c d) := by
  simp only [square_expand]
  rw [← surfaceQuad_sum t geo Q (leaves P M) (T.cols + 1) (coef T x) fun c a s => ∑ d ∈ range (T.cols + 1), coef T x d * prod geo t p T g c d a s]
  refine sum_congr rfl fun c _ => ?_
  rw [← surfaceQuad_sum t geo Q (leaves P M) (T.cols + 1) (coef T x) fun d => prod geo t p T g c d, mul_sum]
  exact sum_congr rfl fun d _ => by ring

include hP hsm ht in
theorem prod_cont (hg : SmoothData P geo g) (c d : Nat) : Cont P M geo t (prod geo t p T g c d) := fun a ha => by
  have q : ∀ c, ContinuousOn (fun x => part geo t p T g c a (elementPoint t geo a x)) {x | ClosedSquare x} := fun c => by
    by_cases h : c < T.cols
    · simp only [part, if_pos h]
      exact value_cont P M geo t p T (unitDofs c) a ha
    · simp only [part, if_neg h]
      exact data_cont near corner P M hP geo hsm t ht g hg a ha
  exact (cross_contOn near corner P M hP geo hsm t ht a ha).mul ((q c).mul (q d))

include hP hsm ht in
theorem distance_expand (hg : SmoothData P geo g) (x : Nat → ℝ) : squaredDistance ⟨t, p, geo, T⟩ (leaves P M) g x =
    ∑ c ∈ range (T.cols + 1), ∑ d ∈ range (T.cols + 1), coef T x c * coef T x d * surfaceIntegral t geo (leaves P M) (prod geo t p T g c d) := by
  have pc := prod_cont near corner P M hP geo hsm t ht p T g hg
  unfold squaredDistance
  simp only [square_expand]
  rw [integral_linear P M geo t _ (coef T x) (fun c a s => ∑ d ∈ range (T.cols + 1), coef T x d * prod geo t p T g c d a s) fun c a ha =>
    continuousOn_finsetSum _ fun d _ => (pc c d a ha).const_smul (coef T x d)]
  refine sum_congr rfl fun c _ => ?_
  rw [integral_linear P M geo t _ (coef T x) (fun d => prod geo t p T g c d) (pc c), mul_sum]
  exact sum_congr rfl fun d _ => by ring

theorem coef_bound (x : Nat → ℝ) (B : ℝ) (hB : 0 ≤ B) (h : ∀ c < T.cols, |x c| ≤ B) (c : Nat) : |coef T x c| ≤ 1 + B := by
  unfold coef
  split
  · have := h c ‹_›
    linarith
  · norm_num
    exact hB

include hP hreg hsm ht in
/-- The products are integrated accurately. -/
theorem prod_rate (es : EigenSolver) (hes : SolverCorrect es) (hg : SmoothData P geo g) (κ : Nat) : ∃ C, 0 ≤ C ∧ ∀ order i, i ≤ order → ∀ c < T.cols + 1, ∀ d < T.cols + 1,
    |surfaceQuad t geo (gaussSquare es order i) (leaves P M) (prod geo t p T g c d) - surfaceIntegral t geo (leaves P M) (prod geo t p T g c d)| ≤
      C / ((i : ℝ) + 1) ^ κ := by
  obtain ⟨t', k1, -, k3, -, -, k6, -⟩ := tree_facts (K := ℝ) near corner P M hP
  obtain rfl : t = t' := Option.some.inj (ht.symm.trans k1)
  have key := fun c d => SurfaceRate.surface_rate es hes near corner P M hP t ht geo hsm {(0 : ℝ)} isCompact_singleton
    (fun _ a s => prod geo t p T g c d a s) (fun a ha x _ s hs' => by
      have hsq := node_square near corner P M hP t ht M le_rfl a ha s hs'
      have h := hreg _ hsq.1 _ hsq.2
      set q : ℝ × (ℝ × ℝ) × V3 × V3 × V3 := (x, s, geo (t.patch a) ((t.llc a).1 + getH t a * s.1, (t.llc a).2 + getH t a * s.2)) with hq
      have gs : ContDiffAt ℝ ∞ (fun q : ℝ × (ℝ × ℝ) × V3 × V3 × V3 => g q.2.2.1) q :=
        ContDiffAt.comp (g := g) q (hg _ hsq.1 _ hsq.2) (SurfaceRate.ps q)
      have pr : ∀ c, ContDiffAt ℝ ∞ (fun q : ℝ × (ℝ × ℝ) × V3 × V3 × V3 => part geo t p T g c a ⟨q.2.1, 1, q.2.2.1, q.2.2.2.1, q.2.2.2.2⟩) q := fun c => by
        by_cases hc : c < T.cols
        · simp only [part, if_pos hc]
          exact SurfaceRate.fs q (SurfaceRate.fun_smooth T _ _ _ _ _ _)
        · simp only [part, if_neg hc]
          exact gs
      exact (SurfaceRate.areas q h).mul ((pr c).mul (pr d))) (leaves P M) (elements_eq t P M hP k3 k6) κ
  choose C C0 hC using key
  refine ⟨∑ c ∈ range (T.cols + 1), ∑ d ∈ range (T.cols + 1), C c d, sum_nonneg fun c _ => sum_nonneg fun d _ => C0 c d, fun order i hi c hc d hd => ?_⟩
  refine (hC c d 0 rfl order i hi).trans (div_le_div_of_nonneg_right ?_ (by positivity))
  refine (single_le_sum (f := fun d => C c d) (fun d _ => C0 c d) (mem_range.2 hd)).trans ?_
  exact single_le_sum (f := fun c => ∑ d ∈ range (T.cols + 1), C c d) (fun c _ => sum_nonneg fun d _ => C0 c d) (mem_range.2 hc)

include hP hreg hsm ht in
theorem reports (es : EigenSolver) (hes : SolverCorrect es) (hT : T.rows = 1 * ((p + 1) * (p + 1) * t.nElements)) (hg : SmoothData P geo g) :
    ReportsErrors es ⟨t, p, geo, T⟩ g := by
  obtain ⟨t', k1, -, k3, -, -, k6, -⟩ := tree_facts (K := ℝ) near corner P M hP
  obtain rfl : t = t' := Option.some.inj (ht.symm.trans k1)
  have hel := elements_eq t P M hP k3 k6
  refine ⟨leaves P M, hel, fun κ => ?_⟩
  obtain ⟨C, C0, hC⟩ := prod_rate near corner P M hP geo hreg hsm t ht p T g es hes hg (2 * κ)
  refine ⟨((T.cols + 1 : ℕ) : ℝ) * Real.sqrt C, by positivity, fun order i hi junk e0 x B hr hc hB hx => ?_⟩
  obtain ⟨els, h1, h2⟩ := C71_l2error near corner P M hP ⟨t, p, geo, T⟩ ht hT junk e0 x hr hc g (gaussSquare es order i)
  obtain rfl : leaves P M = els := Option.some.inj (hel.symm.trans h1)
  refine ⟨_, h2, ?_⟩
  have ev : ∀ (a : Addr) (s : ℝ × ℝ), discreteFunction T x t.nElements p 0 (t.id a) (getH t a) s = valueAt ⟨t, p, geo, T⟩ (fun c => x.at' c 0) a s := fun a s => by
    unfold valueAt
    rw [← discreteFunction_expand T x, ← discreteFunction_expand T ⟨_, _, _⟩]
  simp only [ev]
  refine sqrt_sub _ _ _ (by positivity) ?_
  rw [quad_expand P M geo t p T g, distance_expand near corner P M hP geo hsm t ht p T g hg, ← sum_sub_distrib]
  simp only [← sum_sub_distrib, ← mul_sub]
  have b := coef_bound T (fun c => x.at' c 0) B hB hx
  refine (double_bound (T.cols + 1) _ ((1 + B) ^ 2 * (C / ((i : ℝ) + 1) ^ (2 * κ))) fun c hc d hd => ?_).trans (le_of_eq ?_)
  · rw [abs_mul, abs_mul]
    refine mul_le_mul ?_ (hC order i hi c hc d hd) (abs_nonneg _) (by positivity)
    rw [sq]
    exact mul_le_mul (b c) (b d) (abs_nonneg _) (by positivity)
  · rw [div_pow, mul_pow, mul_pow, Real.sq_sqrt C0, ← pow_mul, mul_comm κ 2]
    ring

include hP hsm ht in
/-- The squared distance is locally Lipschitz continuous. -/
theorem distance_lip (hg : SmoothData P geo g) (B : ℝ) (hB : 0 ≤ B) : ∃ L, 0 ≤ L ∧ ∀ x y : Nat → ℝ, (∀ c < T.cols, |x c| ≤ B) → (∀ c < T.cols, |y c| ≤ B) →
    ∀ δ, 0 ≤ δ → (∀ c < T.cols, |y c - x c| ≤ δ) →
      |squaredDistance ⟨t, p, geo, T⟩ (leaves P M) g y - squaredDistance ⟨t, p, geo, T⟩ (leaves P M) g x| ≤ L * δ := by
  let m := fun c d => surfaceIntegral t geo (leaves P M) (prod geo t p T g c d)
  let S := ∑ c ∈ range (T.cols + 1), ∑ d ∈ range (T.cols + 1), |m c d|
  have S0 : 0 ≤ S := sum_nonneg fun _ _ => sum_nonneg fun _ _ => abs_nonneg _
  refine ⟨((T.cols + 1 : ℕ) : ℝ) ^ 2 * (2 * (1 + B) * S), by positivity, fun x y hx hy δ hδ hxy => ?_⟩
  rw [distance_expand near corner P M hP geo hsm t ht p T g hg, distance_expand near corner P M hP geo hsm t ht p T g hg, ← sum_sub_distrib]
  simp only [← sum_sub_distrib, ← sub_mul]
  refine (double_bound (T.cols + 1) _ (2 * (1 + B) * S * δ) fun c hc d hd => ?_).trans (le_of_eq (by ring))
  have bx := coef_bound T x B hB hx
  have bY := coef_bound T y B hB hy
  have df : ∀ c, |coef T y c - coef T x c| ≤ δ := fun c => by
    unfold coef
    split
    · exact hxy c ‹_›
    · simpa using hδ
  have hm : |m c d| ≤ S := (single_le_sum (f := fun d => |m c d|) (fun _ _ => abs_nonneg _) (mem_range.2 hd)).trans
    (single_le_sum (f := fun c => ∑ d ∈ range (T.cols + 1), |m c d|) (fun _ _ => sum_nonneg fun _ _ => abs_nonneg _) (mem_range.2 hc))
  have h1 : |coef T y c * coef T y d - coef T x c * coef T x d| ≤ 2 * (1 + B) * δ := by
    rw [show coef T y c * coef T y d - coef T x c * coef T x d = coef T y c * (coef T y d - coef T x d) + (coef T y c - coef T x c) * coef T x d by ring]
    refine (abs_add_le _ _).trans ?_
    rw [abs_mul, abs_mul]
    have a1 := mul_le_mul (bY c) (df d) (abs_nonneg _) (by positivity)
    have a2 := mul_le_mul (df c) (bx d) (abs_nonneg _) hδ
    linarith
  rw [abs_mul]
  refine (mul_le_mul h1 hm (abs_nonneg _) (by positivity)).trans (le_of_eq (by ring))

include hP hreg hsm ht in
/-- The errors reported for converging degrees of freedom converge. -/
theorem converging (es : EigenSolver) (hes : SolverCorrect es) (hT : T.rows = 1 * ((p + 1) * (p + 1) * t.nElements)) (hg : SmoothData P geo g)
    (x : Nat → ℝ) (Cy : Nat → ℝ) : ∃ C : Nat → ℝ, ∀ (i order j : Nat), i ≤ j → j ≤ order → ∀ (junk : Nat → ℝ) (e0 : Evaluator ℝ) (z : EMat ℝ),
      z.rows = T.cols → z.cols = 1 → (∀ κ, ∀ c < T.cols, |z.at' c 0 - x c| ≤ Cy κ / ((i : ℝ) + 1) ^ κ) →
      ∃ err, L2Error.surfaceL2error junk e0 ⟨t, p, geo, T⟩ z g (gaussSquare es order j) = some err ∧
        ∀ κ, |err - distance ⟨t, p, geo, T⟩ (leaves P M) g x| ≤ C κ / ((i : ℝ) + 1) ^ κ := by
  obtain ⟨els', l1, l2⟩ := reports near corner P M hP geo hreg hsm t ht p T g es hes hT hg
  obtain ⟨t', k1, -, k3, -, -, k6, -⟩ := tree_facts (K := ℝ) near corner P M hP
  obtain rfl : t = t' := Option.some.inj (ht.symm.trans k1)
  obtain rfl : leaves P M = els' := Option.some.inj ((elements_eq t P M hP k3 k6).symm.trans l1)
  choose Ce Ce0 hCe using l2
  let B := (∑ c ∈ range T.cols, |x c|) + |Cy 0|
  have B0 : 0 ≤ B := add_nonneg (sum_nonneg fun _ _ => abs_nonneg _) (abs_nonneg _)
  obtain ⟨L, L0, hL⟩ := distance_lip near corner P M hP geo hsm t ht p T g hg B B0
  refine ⟨fun κ => Ce κ * (1 + B) + Real.sqrt (L * |Cy (2 * κ)|), fun i o3 j3 c1 c2 junk3 e0 z z1 z2 hz => ?_⟩
  have i1 : ∀ κ, (0 : ℝ) < ((i : ℝ) + 1) ^ κ := fun κ => by positivity
  have xB : ∀ c < T.cols, |x c| ≤ B := fun c hc =>
    (single_le_sum (f := fun c => |x c|) (fun _ _ => abs_nonneg _) (mem_range.2 hc)).trans (le_add_of_nonneg_right (abs_nonneg _))
  have dz : ∀ κ, ∀ c < T.cols, |z.at' c 0 - x c| ≤ |Cy κ| / ((i : ℝ) + 1) ^ κ := fun κ c hc =>
    (hz κ c hc).trans (div_le_div_of_nonneg_right (le_abs_self _) (i1 κ).le)
  have zB : ∀ c < T.cols, |z.at' c 0| ≤ B := fun c hc => by
    have h0 := dz 0 c hc
    rw [pow_zero, div_one] at h0
    have h1 := single_le_sum (f := fun c => |x c|) (fun _ _ => abs_nonneg _) (mem_range.2 hc)
    have h2 := abs_add_le (z.at' c 0 - x c) (x c)
    rw [sub_add_cancel] at h2
    simp only [B]
    linarith
  obtain ⟨err, r1, -⟩ := hCe 0 o3 j3 c2 junk3 e0 z B z1 z2 B0 zB
  refine ⟨err, r1, fun κ => ?_⟩
  obtain ⟨err', r2, r3⟩ := hCe κ o3 j3 c2 junk3 e0 z B z1 z2 B0 zB
  obtain rfl : err = err' := Option.some.inj (r1.symm.trans r2)
  have e1 := r3.trans (SingleLayer.rate_mono (Ce κ * (1 + B)) (mul_nonneg (Ce0 κ) (by positivity)) i j3 κ c1)
  have e2 : |distance ⟨t, p, geo, T⟩ (leaves P M) g (fun c => z.at' c 0) - distance ⟨t, p, geo, T⟩ (leaves P M) g x| ≤
      Real.sqrt (L * |Cy (2 * κ)|) / ((i : ℝ) + 1) ^ κ := by
    refine sqrt_sub _ _ _ (by positivity) ((hL x (fun c => z.at' c 0) xB zB _ (by positivity) (dz (2 * κ))).trans (le_of_eq ?_))
    rw [div_pow, Real.sq_sqrt (by positivity), ← pow_mul, mul_comm κ 2, mul_div_assoc]
  have := abs_sub_le err (distance ⟨t, p, geo, T⟩ (leaves P M) g fun c => z.at' c 0) (distance ⟨t, p, geo, T⟩ (leaves P M) g x)
  rw [add_div]
  linarith

include hP hreg hsm ht in
theorem best (es : EigenSolver) (hes : SolverCorrect es) (hT : T.rows = 1 * ((p + 1) * (p + 1) * t.nElements)) (hg : SmoothData P geo g)
    (h : ProjectsData es P M ⟨t, p, geo, T⟩ g) : ReportsBestError es ⟨t, p, geo, T⟩ g := by
  obtain ⟨els, h1, x, h2, N, Cy, h3⟩ := h
  obtain ⟨t', k1, -, k3, -, -, k6, -⟩ := tree_facts (K := ℝ) near corner P M hP
  obtain rfl : t = t' := Option.some.inj (ht.symm.trans k1)
  obtain rfl : leaves P M = els := Option.some.inj ((elements_eq t P M hP k3 k6).symm.trans h1)
  obtain ⟨C, hC⟩ := converging near corner P M hP geo hreg hsm t ht p T g es hes hT hg x Cy
  refine ⟨leaves P M, h1, distance ⟨t, p, geo, T⟩ (leaves P M) g x, ⟨x, rfl⟩, fun f => Real.sqrt_le_sqrt (h2 f).1, N, C,
    fun i hi o1 j1 o2 j2 o3 j3 a1 a2 b1 b2 c1 c2 junk1 junk2 junk3 e0 => ?_⟩
  obtain ⟨Ma, K, v, A1, A2, A3, -, -, -, D1, -, y, y1, y2, y3⟩ := h3 i hi o1 j1 i i o2 j2 a1 a2 le_rfl le_rfl b1 b2 junk1 junk1 junk2
  have em : (fun c d => 1 * Ma.at' c d + 0 * K.at' c d) = Ma.at' := funext fun c => funext fun d => by ring
  rw [em] at y1 y2
  refine ⟨Ma, v, A1, D1, ⟨y, y1⟩, fun z z1 z2 z3 => hC i o3 j3 c1 c2 junk3 e0 z z1 z2 fun κ c hc => ?_⟩
  have e := y2 _ z3 c hc
  exact (congrArg (fun q => |q - x c|) e).le.trans ((y3 κ).1 c hc)

include hP hreg hsm ht in
theorem reference (es : EigenSolver) (hes : SolverCorrect es) (hT : T.rows = 1 * ((p + 1) * (p + 1) * t.nElements)) (hg : SmoothData P geo g)
    (f : V3 → ℝ) (γ : ℝ) (h : SolvesBeltrami es P M ⟨t, p, geo, T⟩ f γ) : ReportsReference es P M ⟨t, p, geo, T⟩ f g γ := by
  obtain ⟨els, h1, h2, h3⟩ := h
  obtain ⟨t', k1, -, k3, -, -, k6, -⟩ := tree_facts (K := ℝ) near corner P M hP
  obtain rfl : t = t' := Option.some.inj (ht.symm.trans k1)
  obtain rfl : leaves P M = els := Option.some.inj ((elements_eq t P M hP k3 k6).symm.trans h1)
  refine ⟨leaves P M, h1, h2, fun gr hgr => ?_⟩
  obtain ⟨-, -, x, x1, -, -, N, Cy, h4⟩ := h3 gr hgr
  obtain ⟨C, hC⟩ := converging near corner P M hP geo hreg hsm t ht p T g es hes hT hg x Cy
  refine ⟨x, x1, N, C, fun i hi o1 j1 o2 j2 o3 j3 o4 j4 a1 a2 b1 b2 c1 c2 d1 d2 junk1 junk2 junk3 junk4 e0 => ?_⟩
  obtain ⟨K, v, w, A1, -, -, B1, D1, -, y, y1, y2, y3⟩ := h4 i hi o1 j1 o2 j2 o3 j3 a1 a2 b1 b2 c1 c2 junk1 junk2 junk3
  refine ⟨K, v, w, A1, B1, D1, ⟨y, y1⟩, fun z z1 z2 z3 => hC i o4 j4 d1 d2 junk4 e0 z z1 z2 fun κ c hc => ?_⟩
  have e := y2 _ z3 c hc
  exact (congrArg (fun q => |q - x c|) e).le.trans ((y3 κ).1 c hc)

end
end ErrorReport
open ErrorReport

section
variable (near : V3 → V3 → Bool) (corner : Nat → Nat → V3) (P M : Nat) (hP : 0 < P) (geo : Nat → ℝ × ℝ → V3 × V3 × V3)
    (hreg : RegularPatches P geo) (hsm : SmoothPatches P geo) (t : Mesh.Tree ℝ) (ht : initElementTree near corner P M = some t)
    (es : EigenSolver) (hes : SolverCorrect es) (g : V3 → ℝ) (hg : SmoothData P geo g) (T : EMat ℝ) (p : Nat)
include hP hreg hsm ht hes hg

/-- C95: reported L2 errors converge to the L2 distance, faster than any power of the number of quadrature points. -/
theorem C95_errors (hT : T.rows = 1 * ((p + 1) * (p + 1) * t.nElements)) : ReportsErrors es ⟨t, p, geo, T⟩ g :=
  reports near corner P M hP geo hreg hsm t ht p T g es hes hT hg

variable (junkT : Nat → ℝ) (junkM : Nat → Nat → ℝ) (solve : Nat → (Nat → Nat → ℝ) → (Nat → ℝ) → Nat → ℝ) (hs : SolvesSystems solve) (rep : Nat)
include hs

/-- C95: the error reported for the computed L2 projection converges to the best possible error, for continuous ansatz functions. -/
theorem C95_continuous (hc : ConformingPatches near corner P) (ho : OrientedPatches corner P) (hp0 : 0 < p) (hp : p ≤ 4) (hrep : 1 ≤ rep) (hrp : rep ≤ p)
    (hT : Ansatz.transformationCont junkT junkM solve t p M P rep = some T) : ReportsBestError es ⟨t, p, geo, T⟩ g := by
  obtain ⟨u, g1, g2, g3, -⟩ := tree_facts (K := ℝ) near corner P M hP
  obtain rfl : u = t := Option.some.inj (g1.symm.trans ht)
  have hT' : T.rows = 1 * ((p + 1) * (p + 1) * u.nElements) := by
    rw [WellPosed.cont_rows near corner junkT junkM solve hs p M P rep hP hp0 (by omega) hrep hrp hc ho u ht T hT, g3]; ring
  exact best near corner P M hP geo hreg hsm u ht p T g es hes hT' hg
    (C93_continuous near corner P M hP geo hreg hsm u ht junkT junkM solve hs p rep es hes g hg T hc ho hp0 hp hrep hrp hT).1

/-- C95: the error reported for the computed solution of the stabilised Laplace-Beltrami equation with the data `f` converges to the distance of the reference
to the exact Galerkin solution. -/
theorem C95_beltrami (hc : ConformingPatches near corner P) (ho : OrientedPatches corner P) (hconn : PatchesConnected corner P) (hp0 : 0 < p) (hp : p ≤ 4)
    (hrep : 1 ≤ rep) (hrp : rep ≤ p) (hT : Ansatz.transformationCont junkT junkM solve t p M P rep = some T) (f : V3 → ℝ) (hf : SmoothData P geo f)
    (γ : ℝ) (hγ : 0 < γ) : ReportsReference es P M ⟨t, p, geo, T⟩ f g γ := by
  obtain ⟨u, g1, g2, g3, -⟩ := tree_facts (K := ℝ) near corner P M hP
  obtain rfl : u = t := Option.some.inj (g1.symm.trans ht)
  have hT' : T.rows = 1 * ((p + 1) * (p + 1) * u.nElements) := by
    rw [WellPosed.cont_rows near corner junkT junkM solve hs p M P rep hP hp0 (by omega) hrep hrp hc ho u ht T hT, g3]; ring
  exact reference near corner P M hP geo hreg hsm u ht p T g es hes hT' hg f γ
    (C94_beltrami near corner P M hP geo hreg hsm hc ho hconn u ht junkT junkM solve hs p rep hp0 hp hrep hrp T hT es hes f hf γ hγ)

/-- C95: the same for discontinuous ansatz functions. -/
theorem C95_discontinuous (hp : p ≤ 4) (hrep : 1 ≤ rep) (hT : Ansatz.transformationDisc junkT junkM solve t p M P rep = some T) :
    ReportsBestError es ⟨t, p, geo, T⟩ g := by
  obtain ⟨A, T1, c1, c2, c3, c4, c5⟩ := C64_discontinuous near corner junkT junkM solve hs p M P rep hP (by omega) hrep t ht
  obtain rfl : T1 = T := Option.some.inj (c2.symm.trans hT)
  obtain ⟨A', h1, h2, -⟩ := disc_matrix near corner junkT junkM solve hs p M P rep hP (by omega) hrep t ht
  obtain rfl : A' = A := Option.some.inj (h1.symm.trans c1)
  obtain ⟨u, g1, g2, g3, -⟩ := tree_facts (K := ℝ) near corner P M hP
  obtain rfl : u = t := Option.some.inj (g1.symm.trans ht)
  have hT' : T1.rows = 1 * ((p + 1) * (p + 1) * u.nElements) := by rw [c3, h2, g3]; ring
  exact best near corner P M hP geo hreg hsm u ht p T1 g es hes hT' hg
    (C93_discontinuous near corner P M hP geo hreg hsm u ht junkT junkM solve hs p rep es hes g hg T1 hp hrep hT)

end

end Bembel.Props
