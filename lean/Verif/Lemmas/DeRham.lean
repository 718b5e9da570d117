import Verif.Props.SpaceExact
import Verif.Props.SplineDerivative
import Verif.Spec.LinearForm
import Verif.Props.Operators
import Mathlib.LinearAlgebra.Dual.Lemmas
/-!
# Derivatives of patchwise splines
-/

set_option linter.unusedSectionVars false

open Finset Topology

namespace Bembel.DeRham
open Spec Spl Projector Refine Props

/-! ### uniform B-splines -/

theorem shift_knot (q n r i : Nat) : (uniformKnot q n r i : ℝ) = uniformKnot (q + 1) n r (i + 1) := by
  unfold uniformKnot
  rw [show i + 1 - (q + 1) = i - q by omega]
  have e1 : i + 1 < q + 1 ↔ i < q := by omega
  have e2 : i + 1 < q + 1 + (n - 1) * r ↔ i < q + (n - 1) * r := by omega
  simp only [e1, e2]

/-- B-splines of lower order are those of the same knot vector without the first knot. -/
theorem spline_lower (q n r i : Nat) (x : ℝ) :
    uniformSpline q n r i x = bspline (uniformKnot (q + 1) n r) (splineDim (q + 1) n r) x (q - 1) (i + 1) := by
  unfold uniformSpline
  have h := bspline_shift (uniformKnot (q + 1) n r) (splineDim (q + 1) n r) (by unfold splineDim; omega) x (q - 1) i
  rw [← h]
  have e1 : splineDim (q + 1) n r - 1 = splineDim q n r := by unfold splineDim; omega
  rw [e1]
  congr 1
  funext i
  exact shift_knot q n r i

/-- Coefficient of B-spline `j` of order `q` in the derivative of B-spline `i` of order `q + 1`. -/
noncomputable def derCoef (q n r j i : Nat) : ℝ :=
  (q : ℝ) / (uniformKnot (q + 1) n r (j + 1 + q) - uniformKnot (q + 1) n r (j + 1)) * ((if j + 1 = i then 1 else 0) - if j = i then 1 else 0)

/-- The derivative of a B-spline. -/
noncomputable def splineDer (q n r i : Nat) (x : ℝ) : ℝ := ∑ j ∈ range (splineDim q n r), uniformSpline q n r j x * derCoef q n r j i

theorem tau_jump (q n r : Nat) (hr : 1 ≤ r) (hrq : r ≤ q) (hn : 0 < n) (i : Nat) (hi : i + 1 < splineDim (q + 1) n r) :
    tau (q + 1) n r (i + 1) < tau (q + 1) n r (i + 1 + q) := by
  unfold splineDim at hi
  have hle := tau_le (q + 1) n r (i + 1) hn hr
  unfold tau at hle ⊢
  by_cases h1 : i + 1 < q + 1
  · rw [if_pos h1, if_neg (show ¬ i + 1 + q < q + 1 by omega)]
    split_ifs
    · exact Nat.succ_pos _
    · exact hn
  · rw [if_neg h1, if_pos hi, if_neg (show ¬ i + 1 + q < q + 1 by omega)]
    have hlt : (i + 1 - (q + 1)) / r < n - 1 := by rw [Nat.div_lt_iff_lt_mul (by omega)]; omega
    split_ifs with h2
    · have : (i + 1 - (q + 1) + r) / r ≤ (i + 1 + q - (q + 1)) / r := Nat.div_le_div_right (by omega)
      rw [Nat.add_div_right _ (by omega)] at this
      omega
    · omega

theorem spline_der (q n r : Nat) (hq : 1 ≤ q) (hr : 1 ≤ r) (hrq : r ≤ q) (hn : 0 < n) (i : Nat) (hi : i < splineDim (q + 1) n r) (x : ℝ) (h0 : 0 ≤ x) (h1 : x < 1) :
    HasDerivWithinAt (uniformSpline (q + 1) n r i) (splineDer q n r i x) (Set.Ici x) x ∧
    ((∀ m : Nat, (m : ℝ) / n ≠ x) → HasDerivAt (uniformSpline (q + 1) n r i) (splineDer q n r i x) x) := by
  have hn' : (0 : ℝ) < n := by exact_mod_cast hn
  set t : Nat → ℝ := uniformKnot (q + 1) n r with ht
  set N := splineDim (q + 1) n r with hN
  have mono : Monotone t := uniformKnot_mono (q + 1) n r hn hr
  have last : t N = 1 := knot_dim (q + 1) n r hn
  have hqN : q < N := by rw [hN]; unfold splineDim; omega
  have hlast : t (N - 1) < t N := by
    have := knot_span (q + 1) n r (n - 1) (by omega) hr (by omega)
    rw [show q + 1 - 1 + r * (n - 1) = N - 1 by rw [hN]; unfold splineDim; rw [Nat.mul_comm]; omega,
      show N - 1 + 1 = N by omega] at this
    rw [ht, this.1, this.2, div_lt_div_iff_of_pos_right hn']; linarith
  have hmult : ∀ i, i + 1 < N → t (i + 1) < t (i + 1 + q) := by
    intro i hi
    rw [ht, uniformKnot_tau _ _ _ _ hn, uniformKnot_tau _ _ _ _ hn]
    have := tau_jump q n r hr hrq hn i hi
    have : (tau (q + 1) n r (i + 1) : ℝ) < tau (q + 1) n r (i + 1 + q) := by exact_mod_cast this
    exact mul_lt_mul_of_pos_right this (by positivity)
  have tq : t q = 0 := by rw [ht]; unfold uniformKnot; rw [if_pos (by omega)]
  have hd := C08_derivative q N q (fun j => if j = i then (1 : ℝ) else 0) t x mono hq hqN le_rfl hlast hmult (by rw [tq]; exact h0) (by rw [last]; exact h1.le)
  obtain ⟨d, d1, d2, d3⟩ := hd
  obtain ⟨k, rfl⟩ : ∃ k, q = k + 1 := ⟨q - 1, by omega⟩
  have e := deBoorDer_eq (k + 1) N k (fun j => if j = i then (1 : ℝ) else 0) t x mono hqN le_rfl hlast hmult (by rw [tq]; exact h0) (by rw [last]; exact h1.le)
  have hdv : d = splineDer (k + 1) n r i x := by
    have := Option.some.inj (d1.symm.trans e)
    rw [this]
    unfold splineDer derCoef
    rw [show splineDim (k + 1) n r = N - 1 by rw [hN]; unfold splineDim; omega]
    refine sum_congr rfl fun j _ => ?_
    rw [spline_lower, smul_eq_mul, smul_eq_mul, ← ht, ← hN, show k + 1 - 1 = k by omega, show j + 1 + (k + 1) = j + 1 + k + 1 by omega]
  have fn : (fun y => ∑ j ∈ range N, bspline t N y (k + 1) j • (fun j => if j = i then (1 : ℝ) else 0) j) = uniformSpline (k + 1 + 1) n r i := by
    funext y
    simp only [smul_eq_mul, mul_ite, mul_one, mul_zero, sum_ite_eq', mem_range, if_pos hi]
    rfl
  rw [fn] at d2 d3
  rw [← hdv]
  rw [last, if_pos h1] at d3
  refine ⟨d3, fun hm => d2 fun j => ?_⟩
  rw [ht, uniformKnot_tau _ _ _ _ hn, mul_one_div]
  exact hm _

/-! ### differentiating identities with coefficients in an algebra -/

variable {R : Type} [Field R] [Algebra ℝ R]

theorem deriv_congr (S C : Finset Nat) (φ ψ : Nat → ℝ → ℝ) (φ' ψ' : Nat → ℝ) (a b : Nat → R) (x : ℝ) (s : Set ℝ) (hx : x ∈ s) (hs : UniqueDiffWithinAt ℝ s x)
    (hφ : ∀ i ∈ S, HasDerivWithinAt (φ i) (φ' i) s x) (hψ : ∀ i ∈ C, HasDerivWithinAt (ψ i) (ψ' i) s x)
    (h : ∀ᶠ y in 𝓝[s] x, ∑ i ∈ S, φ i y • a i = ∑ c ∈ C, ψ c y • b c) : ∑ i ∈ S, φ' i • a i = ∑ c ∈ C, ψ' c • b c := by
  rw [← sub_eq_zero, ← Module.forall_dual_apply_eq_zero_iff ℝ]
  intro l
  rw [map_sub, sub_eq_zero, map_sum, map_sum]
  simp only [map_smul]
  have h1 : HasDerivWithinAt (fun y => ∑ i ∈ S, φ i y • l (a i)) (∑ i ∈ S, φ' i • l (a i)) s x :=
    HasDerivWithinAt.fun_sum fun i hi => (hφ i hi).smul_const (l (a i))
  have h2 : HasDerivWithinAt (fun y => ∑ i ∈ C, ψ i y • l (b i)) (∑ i ∈ C, ψ' i • l (b i)) s x :=
    HasDerivWithinAt.fun_sum fun i hi => (hψ i hi).smul_const (l (b i))
  have e : (fun y => ∑ i ∈ S, φ i y • l (a i)) =ᶠ[𝓝[s] x] fun y => ∑ i ∈ C, ψ i y • l (b i) := by
    filter_upwards [h] with y hy
    have := congrArg l hy
    simpa only [map_sum, map_smul] using this
  exact hs.eq_deriv s h1 (h2.congr_of_eventuallyEq e (e.self_of_nhdsWithin hx))

/-! ### partial derivatives of splines on a patch -/

/-- Coefficients of the partial derivative in the first direction: from orders `(qx + 1, qy)` to `(qx, qy)`. -/
noncomputable def dCoefX (qx n r : Nat) (g : Nat → R) (c : Nat) : R :=
  ∑ i ∈ range (splineDim (qx + 1) n r), derCoef qx n r (c % splineDim qx n r) i • g (c / splineDim qx n r * splineDim (qx + 1) n r + i)

/-- Coefficients of the partial derivative in the second direction: from orders `(qx, qy + 1)` to `(qx, qy)`. -/
noncomputable def dCoefY (qx qy n r : Nat) (g : Nat → R) (c : Nat) : R :=
  ∑ j ∈ range (splineDim (qy + 1) n r), derCoef qy n r (c / splineDim qx n r) j • g (j * splineDim qx n r + c % splineDim qx n r)

theorem splineFun_dx (qx qy n r : Nat) (hqx : 1 ≤ qx) (g : Nat → R) (x : ℝ × ℝ) :
    splineFun qx qy n r (dCoefX qx n r g) x = ∑ j ∈ range (splineDim qy n r), ∑ i ∈ range (splineDim (qx + 1) n r),
      (splineDer qx n r i x.1 * uniformSpline qy n r j x.2) • g (j * splineDim (qx + 1) n r + i) := by
  rw [splineFun_pairs]
  refine sum_congr rfl fun j _ => ?_
  unfold dCoefX splineDer
  simp only [smul_sum]
  rw [sum_comm]
  refine sum_congr rfl fun i _ => ?_
  rw [sum_mul, sum_smul]
  refine sum_congr rfl fun k hk => ?_
  have hk := mem_range.1 hk
  rw [(divmod_pair hk).1, (divmod_pair hk).2, smul_smul]
  congr 1; ring

theorem splineFun_dy (qx qy n r : Nat) (hqy : 1 ≤ qy) (g : Nat → R) (x : ℝ × ℝ) :
    splineFun qx qy n r (dCoefY qx qy n r g) x = ∑ j ∈ range (splineDim (qy + 1) n r), ∑ i ∈ range (splineDim qx n r),
      (uniformSpline qx n r i x.1 * splineDer qy n r j x.2) • g (j * splineDim qx n r + i) := by
  rw [splineFun_pairs, sum_comm]
  conv_rhs => rw [sum_comm]
  refine sum_congr rfl fun i hi => ?_
  have hi := mem_range.1 hi
  unfold dCoefY splineDer
  simp only [smul_sum]
  rw [sum_comm]
  refine sum_congr rfl fun j _ => ?_
  rw [mul_sum, sum_smul]
  refine sum_congr rfl fun k hk => ?_
  rw [(divmod_pair hi).1, (divmod_pair hi).2, smul_smul]
  congr 1; ring

/-- Partial derivatives commute. -/
theorem dCoef_comm (qx qy n r : Nat) (hqx : 1 ≤ qx) (g : Nat → R) (c : Nat) :
    dCoefX qx n r (dCoefY (qx + 1) qy n r g) c = dCoefY qx qy n r (dCoefX qx n r g) c := by
  unfold dCoefX dCoefY
  have hd : 0 < splineDim qx n r := dim_pos _ _ _ hqx
  simp only [smul_sum]
  rw [sum_comm]
  refine sum_congr rfl fun j _ => sum_congr rfl fun i hi => ?_
  have hi := mem_range.1 hi
  have hm := Nat.mod_lt c hd
  rw [(divmod_pair hi).1, (divmod_pair hi).2, (divmod_pair hm).1, (divmod_pair hm).2, smul_smul, smul_smul, mul_comm]

/-! ### elements -/

theorem smul_pairs (qx qy n r : Nat) (hqx : 1 ≤ qx) (a b : Nat → ℝ) (g : Nat → R) :
    ∑ c ∈ range (splineDim qx n r * splineDim qy n r), (a (c % splineDim qx n r) * b (c / splineDim qx n r)) • g c =
      ∑ j ∈ range (splineDim qy n r), ∑ i ∈ range (splineDim qx n r), (a i * b j) • g (j * splineDim qx n r + i) := by
  rw [Nat.mul_comm, H2.sum_range_mul]
  refine sum_congr rfl fun j _ => sum_congr rfl fun i hi => ?_
  have hi := mem_range.1 hi
  rw [(divmod_pair hi).1, (divmod_pair hi).2]

theorem shape_derX (P i : Nat) (s : ℝ × ℝ) : HasDerivAt (fun x => shape P i (x, s.2)) (shapeDx P i s) s.1 := by
  rw [shapeDx_eq]
  exact (bern_deriv P (i % (P + 1)) s.1).mul_const (bern P (i / (P + 1)) s.2)

theorem shape_derY (P i : Nat) (s : ℝ × ℝ) : HasDerivAt (fun y => shape P i (s.1, y)) (shapeDy P i s) s.2 := by
  rw [shapeDy_eq]
  exact (bern_deriv P (i / (P + 1)) s.2).const_mul (bern P (i % (P + 1)) s.1)

theorem spline_der_element (q M r : Nat) (hq : 1 ≤ q) (hr : 1 ≤ r) (hrq : r ≤ q) (X : Nat) (hX : X < 2 ^ M) (i : Nat) (hi : i < splineDim (q + 1) (2 ^ M) r)
    (s : ℝ) (h0 : 0 ≤ s) (h1 : s < 1) :
    HasDerivWithinAt (fun y => uniformSpline (q + 1) (2 ^ M) r i ((X : ℝ) / 2 ^ M + y / 2 ^ M))
      (splineDer q (2 ^ M) r i ((X : ℝ) / 2 ^ M + s / 2 ^ M) * (1 / 2 ^ M)) (Set.Ici s) s := by
  have hb := SpaceExact.in_square M X hX s h0 h1
  have hlt : (X : ℝ) / 2 ^ M + s / 2 ^ M < 1 := by
    have : (X : ℝ) + 1 ≤ 2 ^ M := by exact_mod_cast hX
    rw [← add_div, div_lt_one (by positivity)]; linarith
  have d1 := (spline_der q (2 ^ M) r hq hr hrq (by positivity) i hi _ hb.1 hlt).1
  have d2 : HasDerivWithinAt (fun y : ℝ => (X : ℝ) / 2 ^ M + y / 2 ^ M) (1 / 2 ^ M) (Set.Ici s) s :=
    (((hasDerivAt_id s).div_const (2 ^ M)).const_add ((X : ℝ) / 2 ^ M)).hasDerivWithinAt
  refine HasDerivWithinAt.comp s d1 d2 ?_
  intro y hy
  have hy : s ≤ y := hy
  have : s / 2 ^ M ≤ y / 2 ^ M := div_le_div_of_nonneg_right hy (by positivity)
  show (X : ℝ) / 2 ^ M + s / 2 ^ M ≤ (X : ℝ) / 2 ^ M + y / 2 ^ M
  linarith

theorem right_nhds (s : ℝ) (h1 : s < 1) : ∀ᶠ y in 𝓝[Set.Ici s] s, s ≤ y ∧ y < 1 := Ico_mem_nhdsGE h1

/-- The partial derivative in the first direction of a discrete function which is a patchwise spline. -/
theorem element_dx (P qx qy M r X Y : Nat) (hqx : 1 ≤ qx) (hr : 1 ≤ r) (hrq : r ≤ qx) (hX : X < 2 ^ M) (T f : EMat R) (nE d e : Nat) (g : Nat → R)
    (h : ∀ s : ℝ × ℝ, 0 ≤ s.1 → s.1 < 1 → 0 ≤ s.2 → s.2 < 1 → discreteFunction T f nE P d e (1 / 2 ^ M) s =
      splineFun (qx + 1) qy (2 ^ M) r g ((X : ℝ) / 2 ^ M + s.1 / 2 ^ M, (Y : ℝ) / 2 ^ M + s.2 / 2 ^ M))
    (s : ℝ × ℝ) (h1 : 0 ≤ s.1) (h2 : s.1 < 1) (h3 : 0 ≤ s.2) (h4 : s.2 < 1) :
    discreteDx T f nE P d e (1 / 2 ^ M) s = splineFun qx qy (2 ^ M) r (dCoefX qx (2 ^ M) r g) ((X : ℝ) / 2 ^ M + s.1 / 2 ^ M, (Y : ℝ) / 2 ^ M + s.2 / 2 ^ M) := by
  set N := splineDim (qx + 1) (2 ^ M) r with hN
  set N' := splineDim qy (2 ^ M) r with hN'
  set u := (Y : ℝ) / 2 ^ M + s.2 / 2 ^ M with hu
  have hNpos : 0 < N := dim_pos _ _ _ (by omega)
  have key := deriv_congr (R := R) (range ((P + 1) * (P + 1))) (range (N * N')) (fun i y => shape P i (y, s.2))
    (fun c y => patchSpline (qx + 1) qy (2 ^ M) r c ((X : ℝ) / 2 ^ M + y / 2 ^ M, u)) (fun i => shapeDx P i s)
    (fun c => (splineDer qx (2 ^ M) r (c % N) ((X : ℝ) / 2 ^ M + s.1 / 2 ^ M) * (1 / 2 ^ M)) * uniformSpline qy (2 ^ M) r (c / N) u)
    (fun i => (1 / (1 / 2 ^ M) : ℝ) • localCoeff T f nE P d e i) g s.1 (Set.Ici s.1) Set.self_mem_Ici (uniqueDiffOn_Ici s.1 s.1 Set.self_mem_Ici)
    (fun i _ => (shape_derX P i s).hasDerivWithinAt)
    (fun c _ => (spline_der_element qx M r hqx hr hrq X hX (c % N) (Nat.mod_lt _ hNpos) s.1 h1 h2).mul_const (uniformSpline qy (2 ^ M) r (c / N) u)) ?_
  · have lhs : discreteDx T f nE P d e (1 / 2 ^ M) s = (2 ^ M : ℝ) • ∑ i ∈ range ((P + 1) * (P + 1)), shapeDx P i s • (1 / (1 / 2 ^ M) : ℝ) • localCoeff T f nE P d e i := by
      unfold discreteDx
      rw [smul_sum, mul_sum]
      refine sum_congr rfl fun i _ => ?_
      simp only [Algebra.smul_def]
      rw [show (1 / (1 / 2 ^ M) ^ 2 : ℝ) = 2 ^ M * (1 / (1 / 2 ^ M)) by field_simp, map_mul]
      ring
    rw [lhs, key, smul_sum, splineFun_dx qx qy (2 ^ M) r hqx g, ← hN', ← hN,
      ← smul_pairs (qx + 1) qy (2 ^ M) r (by omega) (fun i => splineDer qx (2 ^ M) r i ((X : ℝ) / 2 ^ M + s.1 / 2 ^ M)) (fun j => uniformSpline qy (2 ^ M) r j u)]
    refine sum_congr rfl fun c _ => ?_
    rw [smul_smul]
    congr 1
    have : ∀ a b : ℝ, 2 ^ M * (a * (1 / 2 ^ M) * b) = a * b := by intro a b; field_simp
    exact this _ _
  · filter_upwards [right_nhds s.1 h2] with y hy
    have := h (y, s.2) (h1.trans hy.1) hy.2 h3 h4
    unfold discreteFunction splineFun at this
    rw [← this, mul_sum]
    refine sum_congr rfl fun i _ => ?_
    simp only [Algebra.smul_def]
    ring

/-- The partial derivative in the second direction of a discrete function which is a patchwise spline. -/
theorem element_dy (P qx qy M r X Y : Nat) (hqx : 1 ≤ qx) (hqy : 1 ≤ qy) (hr : 1 ≤ r) (hrq : r ≤ qy) (hY : Y < 2 ^ M) (T f : EMat R) (nE d e : Nat) (g : Nat → R)
    (h : ∀ s : ℝ × ℝ, 0 ≤ s.1 → s.1 < 1 → 0 ≤ s.2 → s.2 < 1 → discreteFunction T f nE P d e (1 / 2 ^ M) s =
      splineFun qx (qy + 1) (2 ^ M) r g ((X : ℝ) / 2 ^ M + s.1 / 2 ^ M, (Y : ℝ) / 2 ^ M + s.2 / 2 ^ M))
    (s : ℝ × ℝ) (h1 : 0 ≤ s.1) (h2 : s.1 < 1) (h3 : 0 ≤ s.2) (h4 : s.2 < 1) :
    discreteDy T f nE P d e (1 / 2 ^ M) s = splineFun qx qy (2 ^ M) r (dCoefY qx qy (2 ^ M) r g) ((X : ℝ) / 2 ^ M + s.1 / 2 ^ M, (Y : ℝ) / 2 ^ M + s.2 / 2 ^ M) := by
  set N := splineDim qx (2 ^ M) r with hN
  set N' := splineDim (qy + 1) (2 ^ M) r with hN'
  set u := (X : ℝ) / 2 ^ M + s.1 / 2 ^ M with hu
  have key := deriv_congr (R := R) (range ((P + 1) * (P + 1))) (range (N * N')) (fun i y => shape P i (s.1, y))
    (fun c y => patchSpline qx (qy + 1) (2 ^ M) r c (u, (Y : ℝ) / 2 ^ M + y / 2 ^ M)) (fun i => shapeDy P i s)
    (fun c => uniformSpline qx (2 ^ M) r (c % N) u * (splineDer qy (2 ^ M) r (c / N) ((Y : ℝ) / 2 ^ M + s.2 / 2 ^ M) * (1 / 2 ^ M)))
    (fun i => (1 / (1 / 2 ^ M) : ℝ) • localCoeff T f nE P d e i) g s.2 (Set.Ici s.2) Set.self_mem_Ici (uniqueDiffOn_Ici s.2 s.2 Set.self_mem_Ici)
    (fun i _ => (shape_derY P i s).hasDerivWithinAt)
    (fun c hc => (spline_der_element qy M r hqy hr hrq Y hY (c / N) (Nat.div_lt_of_lt_mul (mem_range.1 hc)) s.2 h3 h4).const_mul (uniformSpline qx (2 ^ M) r (c % N) u)) ?_
  · have lhs : discreteDy T f nE P d e (1 / 2 ^ M) s = (2 ^ M : ℝ) • ∑ i ∈ range ((P + 1) * (P + 1)), shapeDy P i s • (1 / (1 / 2 ^ M) : ℝ) • localCoeff T f nE P d e i := by
      unfold discreteDy
      rw [smul_sum, mul_sum]
      refine sum_congr rfl fun i _ => ?_
      simp only [Algebra.smul_def]
      rw [show (1 / (1 / 2 ^ M) ^ 2 : ℝ) = 2 ^ M * (1 / (1 / 2 ^ M)) by field_simp, map_mul]
      ring
    rw [lhs, key, smul_sum, splineFun_dy qx qy (2 ^ M) r hqy g, ← hN', ← hN,
      ← smul_pairs qx (qy + 1) (2 ^ M) r hqx (fun i => uniformSpline qx (2 ^ M) r i u) (fun j => splineDer qy (2 ^ M) r j ((Y : ℝ) / 2 ^ M + s.2 / 2 ^ M))]
    refine sum_congr rfl fun c _ => ?_
    rw [smul_smul]
    congr 1
    have : ∀ a b : ℝ, 2 ^ M * (a * (b * (1 / 2 ^ M))) = a * b := by intro a b; field_simp
    exact this _ _
  · filter_upwards [right_nhds s.2 h4] with y hy
    have := h (s.1, y) h1 h2 (h3.trans hy.1) hy.2
    unfold discreteFunction splineFun at this
    rw [← this, mul_sum]
    refine sum_congr rfl fun i _ => ?_
    simp only [Algebra.smul_def]
    ring

/-! ### edges -/

/-- The components of the curl of a patchwise spline. -/
noncomputable def curlSpline (P n r : Nat) (g : Nat → R) (d : Nat) (x : ℝ × ℝ) : R :=
  if d = 0 then splineFun (P + 1) P n r (dCoefY (P + 1) P n r g) x else -splineFun P (P + 1) n r (dCoefX P n r g) x

theorem not_break (n Y : Nat) (hn : 0 < n) (s : ℝ) (h0 : 0 < s) (h1 : s < 1) (m : Nat) : (m : ℝ) / n ≠ ((Y : ℝ) + s) / n := by
  have hn' : (n : ℝ) ≠ 0 := by positivity
  intro h
  rw [div_left_inj' hn'] at h
  have a1 : (Y : ℝ) < m := by linarith
  have a2 : (m : ℝ) < (Y + 1 : ℕ) := by push_cast; linarith
  have b1 : Y < m := by exact_mod_cast a1
  have b2 : m < Y + 1 := by exact_mod_cast a2
  omega

theorem mirror (n Y : Nat) (hY : Y < n) (s : ℝ) : 1 - ((Y : ℝ) + s) / n = (((n - 1 - Y : Nat) : ℝ) + (1 - s)) / n := by
  have hn' : (n : ℝ) ≠ 0 := by
    have : 0 < n := by omega
    positivity
  rw [Nat.cast_sub (by omega), Nat.cast_sub (by omega)]
  field_simp
  push_cast
  ring

theorem spline_der_in (q n r : Nat) (hq : 1 ≤ q) (hr : 1 ≤ r) (hrq : r ≤ q) (Y : Nat) (hY : Y < n) (s : ℝ) (h0 : 0 < s) (h1 : s < 1) (i : Nat) (hi : i < splineDim (q + 1) n r) :
    HasDerivAt (uniformSpline (q + 1) n r i) (splineDer q n r i (((Y : ℝ) + s) / n)) (((Y : ℝ) + s) / n) := by
  have hn' : (0 : ℝ) < n := by exact_mod_cast (by omega : 0 < n)
  have hY' : (Y : ℝ) + 1 ≤ n := by exact_mod_cast hY
  exact (spline_der q n r hq hr hrq (by omega) i hi _ (by positivity) (by rw [div_lt_one hn']; linarith)).2 (not_break n Y (by omega) s h0 h1)

/-- The flow of the curl out of an edge is the derivative along the edge. -/
theorem edge_flow (P n r : Nat) (hP : 1 ≤ P) (hr : 1 ≤ r) (hrP : r ≤ P) (Y : Nat) (hY : Y < n) (s : ℝ) (h0 : 0 < s) (h1 : s < 1) (i : Nat) (hi : i < 4) :
    ∃ D : Nat → ℝ, (∀ c < splineDim (P + 1) n r * splineDim (P + 1) n r,
        HasDerivAt (fun y : ℝ => patchSpline (P + 1) (P + 1) n r c (Mesh.edgePoint i y)) (D c) (((Y : ℝ) + s) / n)) ∧
      ∀ g : Nat → R, (Glue.outwardSign i : ℝ) • curlSpline P n r g (normalComponent i) (Mesh.edgePoint i (((Y : ℝ) + s) / n)) =
        ∑ c ∈ range (splineDim (P + 1) n r * splineDim (P + 1) n r), D c • g c := by
  set N := splineDim (P + 1) n r with hN
  set x := ((Y : ℝ) + s) / n with hx
  have hNpos : 0 < N := dim_pos _ _ _ (by omega)
  have d1 : ∀ j < N, HasDerivAt (uniformSpline (P + 1) n r j) (splineDer P n r j x) x := spline_der_in P n r hP hr hrP Y hY s h0 h1
  have d2 : ∀ j < N, HasDerivAt (uniformSpline (P + 1) n r j) (splineDer P n r j (1 - x)) (1 - x) := by
    intro j hj
    rw [hx, mirror n Y hY s]
    exact spline_der_in P n r hP hr hrP _ (by omega) _ (by linarith) (by linarith) j hj
  have d3 : ∀ j < N, HasDerivAt (fun y => uniformSpline (P + 1) n r j (1 - y)) (-splineDer P n r j (1 - x)) x := by
    intro j hj
    have := (d2 j hj).comp x ((hasDerivAt_id x).const_sub 1)
    simpa [Function.comp_def] using this
  have md : ∀ c, c % N < N := fun c => Nat.mod_lt _ hNpos
  have dv : ∀ c, c < N * N → c / N < N := fun c hc => Nat.div_lt_of_lt_mul hc
  rcases Glue.four_cases hi with rfl | rfl | rfl | rfl
  · refine ⟨fun c => splineDer P n r (c % N) x * uniformSpline (P + 1) n r (c / N) 0, fun c hc => ?_, fun g => ?_⟩
    · simpa [Mesh.edgePoint, patchSpline] using (d1 _ (md c)).mul_const (uniformSpline (P + 1) n r (c / N) 0)
    · have e := splineFun_dx P (P + 1) n r hP g (x, 0)
      rw [← hN, ← smul_pairs (P + 1) (P + 1) n r (by omega) (fun i => splineDer P n r i x) (fun j => uniformSpline (P + 1) n r j 0), ← hN] at e
      simp [curlSpline, normalComponent, Glue.outwardSign, Mesh.edgePoint, e]
  · refine ⟨fun c => uniformSpline (P + 1) n r (c % N) 1 * splineDer P n r (c / N) x, fun c hc => ?_, fun g => ?_⟩
    · simpa [Mesh.edgePoint, patchSpline] using (d1 _ (dv c hc)).const_mul (uniformSpline (P + 1) n r (c % N) 1)
    · have e := splineFun_dy (P + 1) P n r hP g (1, x)
      rw [← hN, ← smul_pairs (P + 1) (P + 1) n r (by omega) (fun i => uniformSpline (P + 1) n r i 1) (fun j => splineDer P n r j x), ← hN] at e
      simp [curlSpline, normalComponent, Glue.outwardSign, Mesh.edgePoint, e]
  · refine ⟨fun c => -splineDer P n r (c % N) (1 - x) * uniformSpline (P + 1) n r (c / N) 1, fun c hc => ?_, fun g => ?_⟩
    · simpa [Mesh.edgePoint, patchSpline] using (d3 _ (md c)).mul_const (uniformSpline (P + 1) n r (c / N) 1)
    · have e := splineFun_dx P (P + 1) n r hP g (1 - x, 1)
      rw [← hN, ← smul_pairs (P + 1) (P + 1) n r (by omega) (fun i => splineDer P n r i (1 - x)) (fun j => uniformSpline (P + 1) n r j 1), ← hN] at e
      simp [curlSpline, normalComponent, Glue.outwardSign, Mesh.edgePoint, e, neg_smul, sum_neg_distrib]
  · refine ⟨fun c => uniformSpline (P + 1) n r (c % N) 0 * -splineDer P n r (c / N) (1 - x), fun c hc => ?_, fun g => ?_⟩
    · simpa [Mesh.edgePoint, patchSpline] using (d3 _ (dv c hc)).const_mul (uniformSpline (P + 1) n r (c % N) 0)
    · have e := splineFun_dy (P + 1) P n r hP g (0, 1 - x)
      rw [← hN, ← smul_pairs (P + 1) (P + 1) n r (by omega) (fun i => uniformSpline (P + 1) n r i 0) (fun j => splineDer P n r j (1 - x)), ← hN] at e
      simp [curlSpline, normalComponent, Glue.outwardSign, Mesh.edgePoint, e, neg_smul, sum_neg_distrib]

/-- If splines match across the edges of the patches, the flows of their curls cancel. -/
theorem curl_flow {V : Type} (corner : Nat → Nat → V) (P nP n r : Nat) (hP : 1 ≤ P) (hr : 1 ≤ r) (hrP : r ≤ P) (g : Nat → Nat → R)
    (h : MatchAcross corner nP n fun p => splineFun (P + 1) (P + 1) n r (g p)) :
    FlowAcross corner nP n fun d p => curlSpline P n r (g p) d := by
  intro p hp q hq hpq i hi k hk he Y hY s h0 h1
  have hn' : (0 : ℝ) < n := by exact_mod_cast (by omega : 0 < n)
  obtain ⟨D, D1, D2⟩ := edge_flow (R := R) P n r hP hr hrP Y hY s h0 h1 i hi
  obtain ⟨E, E1, E2⟩ := edge_flow (R := R) P n r hP hr hrP (n - 1 - Y) (by omega) (1 - s) (by linarith) (by linarith) k hk
  simp only []
  rw [D2, mirror n Y hY s, E2]
  have key := deriv_congr (R := R) (range (splineDim (P + 1) n r * splineDim (P + 1) n r)) (range (splineDim (P + 1) n r * splineDim (P + 1) n r))
    (fun c y => patchSpline (P + 1) (P + 1) n r c (Mesh.edgePoint i y)) (fun c y => patchSpline (P + 1) (P + 1) n r c (Mesh.edgePoint k (1 - y)))
    D (fun c => -E c) (g p) (g q) (((Y : ℝ) + s) / n) Set.univ (Set.mem_univ _) uniqueDiffWithinAt_univ
    (fun c hc => (D1 c (mem_range.1 hc)).hasDerivWithinAt) (fun c hc => ?_) ?_
  · rw [key, ← sum_add_distrib]
    exact sum_eq_zero fun c _ => by rw [neg_smul, neg_add_cancel]
  · have d := E1 c (mem_range.1 hc)
    rw [← mirror n Y hY s] at d
    have := d.comp (((Y : ℝ) + s) / n) ((hasDerivAt_id (((Y : ℝ) + s) / n)).const_sub 1)
    refine HasDerivAt.hasDerivWithinAt ?_
    simpa [Function.comp_def] using this
  · rw [nhdsWithin_univ]
    have hI : ((Y : ℝ) + s) / n ∈ Set.Ioo ((Y : ℝ) / n) (((Y : ℝ) + 1) / n) :=
      ⟨by rw [div_lt_div_iff_of_pos_right hn']; linarith, by rw [div_lt_div_iff_of_pos_right hn']; linarith⟩
    filter_upwards [Ioo_mem_nhds hI.1 hI.2] with y hy
    have a1 : 0 < n * y - Y := by
      have := hy.1
      rw [div_lt_iff₀ hn'] at this
      linarith
    have a2 : n * y - Y < 1 := by
      have := hy.2
      rw [lt_div_iff₀ hn'] at this
      linarith
    have := h p hp q hq hpq i hi k hk he Y hY (n * y - Y) a1 a2
    rw [show ((Y : ℝ) + (n * y - Y)) / n = y by field_simp; ring] at this
    exact this

end Bembel.DeRham
