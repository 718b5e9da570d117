import Verif.Props.BezierExtraction
import Mathlib.Analysis.Calculus.Deriv.Mul
import Mathlib.Analysis.Calculus.Deriv.Add
import Mathlib.Analysis.Calculus.TangentCone.Real
/-!
# Property C08: derivatives of splines (`DeBoorDer`, `DeBoorTPDer`)
-/

open Finset

namespace Bembel.Props
open Bembel.Spec Bembel.Basis Bembel.Spl Bembel.Geo

/-- Slope of the polar form in one argument. -/
noncomputable def slope (t : Nat → ℝ) (l : Nat) (us : List ℝ) (i : Nat) : ℝ :=
  polar t l us i / (t (i + us.length + 1) - t i) - polar t l us (i + 1) / (t (i + us.length + 2) - t (i + 1))

theorem polar_add (t : Nat → ℝ) (l : Nat) (us : List ℝ) (i : Nat) (u d : ℝ) :
    polar t l ((u + d) :: us) i = polar t l (u :: us) i + d * slope t l us i := by
  unfold slope
  rw [polar, polar]
  ring

theorem polar_deriv (t : Nat → ℝ) (ht : Monotone t) (l : Nat) (hl : t l < t (l + 1)) (x : ℝ) : ∀ (k i : Nat),
    HasDerivAt (fun y => polar t l (List.replicate (k + 1) y) i) ((k + 1 : ℕ) * slope t l (List.replicate k x) i) x
  | 0, i => by
    have h : HasDerivAt (fun y => (y - t i) / (t (i + 0 + 1) - t i) * polar t l [] i +
        (t (i + 0 + 2) - y) / (t (i + 0 + 2) - t (i + 1)) * polar t l [] (i + 1)) _ x :=
      ((((hasDerivAt_id x).sub_const (t i)).div_const (t (i + 0 + 1) - t i)).mul_const (polar t l [] i)).add
        ((((hasDerivAt_id x).const_sub (t (i + 0 + 2))).div_const (t (i + 0 + 2) - t (i + 1))).mul_const (polar t l [] (i + 1)))
    have e : (fun y => polar t l (List.replicate (0 + 1) y) i) = fun y => (y - t i) / (t (i + 0 + 1) - t i) * polar t l [] i +
        (t (i + 0 + 2) - y) / (t (i + 0 + 2) - t (i + 1)) * polar t l [] (i + 1) := by
      funext y
      simp [polar]
    rw [e]
    convert h using 1
    unfold slope
    simp only [List.replicate_zero, List.length_nil]
    push_cast
    ring
  | k' + 1, i => by
    obtain ⟨k, hk⟩ : ∃ k, k = k' + 1 := ⟨_, rfl⟩
    have IH := polar_deriv t ht l hl x k'
    rw [← hk]
    have aux : ∀ j, HasDerivAt (fun y => polar t l (List.replicate k y) j) (k * slope t l (List.replicate (k - 1) x) j) x := by
      intro j
      subst hk
      exact IH j
    have h : HasDerivAt (fun y => (y - t i) / (t (i + k + 1) - t i) * polar t l (List.replicate k y) i +
        (t (i + k + 2) - y) / (t (i + k + 2) - t (i + 1)) * polar t l (List.replicate k y) (i + 1)) _ x :=
      ((((hasDerivAt_id x).sub_const (t i)).div_const (t (i + k + 1) - t i)).mul (aux i)).add
        ((((hasDerivAt_id x).const_sub (t (i + k + 2))).div_const (t (i + k + 2) - t (i + 1))).mul (aux (i + 1)))
    have e : (fun y => polar t l (List.replicate (k + 1) y) i) = fun y => (y - t i) / (t (i + k + 1) - t i) * polar t l (List.replicate k y) i +
        (t (i + k + 2) - y) / (t (i + k + 2) - t (i + 1)) * polar t l (List.replicate k y) (i + 1) := by
      funext y
      rw [List.replicate_succ, polar]
      simp
    rw [e]
    convert h using 1
    have e2 : (k : ℝ) * slope t l (List.replicate k x) i = k * ((x - t i) / (t (i + k + 1) - t i) * slope t l (List.replicate (k - 1) x) i +
        (t (i + k + 2) - x) / (t (i + k + 2) - t (i + 1)) * slope t l (List.replicate (k - 1) x) (i + 1)) := by
      subst hk
      congr 1
      have h1 := polar_add t l (x :: List.replicate k' x) i x 1
      rw [polar_swap t ht l hl, polar, polar_add, polar_add] at h1
      have h2 := polar.eq_2 t l i x (x :: List.replicate k' x)
      rw [h2] at h1
      simp only [List.length_cons, List.length_replicate, one_mul] at h1
      rw [List.replicate_succ, Nat.add_sub_cancel]
      linear_combination -h1
    have e3 : slope t l (List.replicate k x) i = polar t l (List.replicate k x) i / (t (i + k + 1) - t i) -
      polar t l (List.replicate k x) (i + 1) / (t (i + k + 2) - t (i + 1)) := by unfold slope; simp
    push_cast
    rw [add_mul, e2, one_mul, e3]
    simp only [id]
    ring

theorem span_iff (t : Nat → ℝ) (ht : Monotone t) (n l : Nat) (hln : l < n) (hl : t l < t (l + 1)) (y : ℝ) (h0 : t l ≤ y)
    (h1 : y < t (l + 1) ∨ (y = t n ∧ t (l + 1) = t n)) (i : Nat) : inSpan t n i y ↔ i = l := by
  constructor
  · rintro ⟨a, b, c⟩
    have hn := ht (show l + 1 ≤ n by omega)
    have hi := ht (show i + 1 ≤ n by omega)
    rcases Nat.lt_trichotomy i l with h | h | h
    · have := ht (show i + 1 ≤ l by omega)
      rcases c with c | ⟨c1, c2, c3⟩ <;> rcases h1 with h1 | ⟨h1, h2⟩ <;> linarith
    · exact h
    · have := ht (show l + 1 ≤ i by omega)
      rcases c with c | ⟨c1, c2, c3⟩ <;> rcases h1 with h1 | ⟨h1, h2⟩ <;> linarith
  · rintro rfl
    exact ⟨hln, h0, h1.imp id fun h => ⟨h.1, h.2, hl⟩⟩

theorem bspline_shift (t : Nat → ℝ) (n : Nat) (hn : 0 < n) (x : ℝ) : ∀ k i, bspline (fun i => t (i + 1)) (n - 1) x k i = bspline t n x k (i + 1)
  | 0, i => by
    have : inSpan (fun i => t (i + 1)) (n - 1) i x ↔ inSpan t n (i + 1) x := by
      unfold inSpan
      simp only [show n - 1 + 1 = n by omega]
      constructor <;> rintro ⟨a, b⟩ <;> exact ⟨by omega, b⟩
    rw [bspline, bspline]
    by_cases h : inSpan t n (i + 1) x
    · rw [if_pos h, if_pos (this.2 h)]
    · rw [if_neg h, if_neg (fun h' => h (this.1 h'))]
  | k + 1, i => by
    rw [bspline, bspline, bspline_shift t n hn x k i, bspline_shift t n hn x k (i + 1)]
    simp only [show i + k + 1 + 1 = i + 1 + k + 1 by ring]

section
variable {V : Type} [NormedAddCommGroup V] [NormedSpace ℝ V]

/-- Summation by parts. -/
theorem sum_parts (a : Nat → ℝ) (c : Nat → V) : ∀ m, ∑ i ∈ range (m + 1), (a i - a (i + 1)) • c i =
    ∑ i ∈ range m, a (i + 1) • (c (i + 1) - c i) + a 0 • c 0 - a (m + 1) • c m
  | 0 => by simp [sub_smul]
  | m + 1 => by
    rw [sum_range_succ, sum_parts a c m, sum_range_succ, sub_smul, smul_sub]
    abel

/-- The derivative of a spline on a span. -/
theorem spline_deriv (n p : Nat) (c : Nat → V) (t : Nat → ℝ) (ht : Monotone t) (l : Nat) (hpl : p + 1 ≤ l) (hln : l < n) (hl : t l < t (l + 1)) (x : ℝ) :
    HasDerivAt (fun y => ∑ i ∈ range n, polar t l (List.replicate (p + 1) y) i • c i)
      (∑ i ∈ range (n - 1), polar t l (List.replicate p x) (i + 1) • (((p + 1 : Nat) : ℝ) / (t (i + 1 + p + 1) - t (i + 1))) • (c (i + 1) - c i)) x := by
  have h : HasDerivAt (fun y => ∑ i ∈ range n, polar t l (List.replicate (p + 1) y) i • c i) _ x :=
    HasDerivAt.fun_sum fun i _ => (polar_deriv t ht l hl x p i).smul_const (c i)
  convert h using 1
  have hs := sum_parts (fun i => ((p + 1 : Nat) : ℝ) * (polar t l (List.replicate p x) i / (t (i + p + 1) - t i))) c (n - 1)
  rw [show n - 1 + 1 = n by omega] at hs
  have z0 : polar t l (List.replicate p x) 0 = 0 := polar_support t l _ _ (by simp; omega)
  have zn : polar t l (List.replicate p x) n = 0 := polar_support t l _ _ (by simp; omega)
  simp only [z0, zn, zero_div, mul_zero, zero_smul, add_zero, sub_zero] at hs
  have e : ∀ i, ((p + 1 : Nat) : ℝ) * slope t l (List.replicate p x) i = (p + 1 : Nat) * (polar t l (List.replicate p x) i / (t (i + p + 1) - t i)) -
      (p + 1 : Nat) * (polar t l (List.replicate p x) (i + 1) / (t (i + 1 + p + 1) - t (i + 1))) := by
    intro i
    unfold slope
    simp only [List.length_replicate, show i + p + 2 = i + 1 + p + 1 by ring]
    ring
  simp only [e]
  rw [hs]
  refine sum_congr rfl fun i _ => ?_
  rw [smul_smul]
  congr 1
  ring

/-- Value of `DeBoorDer` in terms of the splines of one degree less. -/
theorem deBoorDer_eq {W : Type} [AddCommGroup W] [Module ℝ W] (maxDeg n k : Nat) (c : Nat → W) (t : Nat → ℝ) (x : ℝ) (ht : Monotone t) (hpn : k + 1 < n)
    (hp : k + 1 ≤ maxDeg) (hlast : t (n - 1) < t n) (hmult : ∀ i, i + 1 < n → t (i + 1) < t (i + 1 + (k + 1))) (hx0 : t (k + 1) ≤ x) (hx1 : x ≤ t n) :
    deBoorDer maxDeg ((List.range n).map c) ((List.range (n + (k + 1) + 1)).map t) x =
      some (∑ i ∈ range (n - 1), bspline t n x k (i + 1) • (((k + 1 : Nat) : ℝ) / (t (i + 1 + k + 1) - t (i + 1))) • (c (i + 1) - c i)) := by
  have hd : deBoorDerData ((List.range n).map c) ((List.range (n + (k + 1) + 1)).map t) =
      some ((List.range (n - 1)).map fun i => (((k + 1 : Nat) : ℝ) / (t (i + 1 + k + 1) - t (i + 1))) • (c (i + 1) - c i)) := by
    unfold deBoorDerData
    rw [if_neg (by simp)]
    simp only [List.length_map, List.length_range, show n + (k + 1) + 1 - n - 1 = k + 1 by omega]
    refine mapM_eq_some_map _ _ _ fun i hi => ?_
    have hi := List.mem_range.1 hi
    have := hmult i (by omega)
    have g : ∀ {W : Type} (f : Nat → W) (m j : Nat), j < m → ((List.range m).map f)[j]? = some (f j) := fun f m j hj => by
      rw [List.getElem?_map, List.getElem?_range hj]; rfl
    rw [g _ _ _ (by omega), g _ _ _ (by omega), g _ _ _ (by omega), g _ _ _ (by omega)]
    simp only [Option.bind_eq_bind, Option.bind_some]
    rw [show i + (k + 1) + 1 = i + 1 + (k + 1) by ring, if_neg (by linarith)]
    rfl
  have hk : ((List.range (n + (k + 1) + 1)).map t).tail.dropLast = (List.range (n - 1 + k + 1)).map fun i => t (i + 1) := by
    rw [show n + (k + 1) + 1 = (n + k) + 1 + 1 by ring, List.range_succ_eq_map, show n - 1 + k + 1 = n + k by omega, List.range_succ]
    simp [Function.comp_def]
  have hb := C08_deBoor maxDeg (n - 1) k (fun i => (((k + 1 : Nat) : ℝ) / (t (i + 1 + k + 1) - t (i + 1))) • (c (i + 1) - c i)) (fun i => t (i + 1)) x
    (fun a b hab => ht (by omega)) (by omega) (by omega) (by
      simp only [show n - 1 - 1 + 1 = n - 1 by omega, show n - 1 + 1 = n by omega]; exact hlast) hx0
    (by simpa only [show n - 1 + 1 = n by omega] using hx1)
  unfold deBoorDer
  rw [hd]
  simp only [Option.bind_eq_bind, Option.bind_some]
  rw [hk, hb]
  congr 1
  refine sum_congr rfl fun i _ => ?_
  rw [bspline_shift t n (by omega)]

/-- C08: `DeBoorDer` returns the derivative of the spline, for every degree from one on and knots with multiplicity up to the degree: the two-sided
derivative between the knots, the derivative from the right in the knots and from the left in the last one. -/
theorem C08_derivative (maxDeg n p : Nat) (c : Nat → V) (t : Nat → ℝ) (x : ℝ) (ht : Monotone t) (h1 : 1 ≤ p) (hpn : p < n) (hp : p ≤ maxDeg)
    (hlast : t (n - 1) < t n) (hmult : ∀ i, i + 1 < n → t (i + 1) < t (i + 1 + p)) (hx0 : t p ≤ x) (hx1 : x ≤ t n) :
    ∃ d, deBoorDer maxDeg ((List.range n).map c) ((List.range (n + p + 1)).map t) x = some d ∧
      ((∀ i, t i ≠ x) → HasDerivAt (fun y => ∑ i ∈ range n, bspline t n y p i • c i) d x) ∧
      HasDerivWithinAt (fun y => ∑ i ∈ range n, bspline t n y p i • c i) d (if x < t n then Set.Ici x else Set.Iic x) x := by
  obtain ⟨k, rfl⟩ : ∃ k, p = k + 1 := ⟨p - 1, by omega⟩
  obtain ⟨l, hpl, hln, hl0, hl1, hl, hspan, -⟩ := deBoor_core maxDeg n (k + 1) c t x ht hpn hp hlast hx0 hx1
  refine ⟨∑ i ∈ range (n - 1), polar t l (List.replicate k x) (i + 1) • (((k + 1 : Nat) : ℝ) / (t (i + 1 + k + 1) - t (i + 1))) • (c (i + 1) - c i),
    ?_, ?_, ?_⟩
  · rw [deBoorDer_eq maxDeg n k c t x ht hpn hp hlast hmult hx0 hx1]
    congr 1
    refine sum_congr rfl fun i _ => ?_
    rw [bspline_eq_polar t n x l hspan]
  · intro hne
    have a : t l < x := lt_of_le_of_ne hl0 (hne l)
    have b : x < t (l + 1) := lt_of_le_of_ne hl1 (Ne.symm (hne (l + 1)))
    refine (spline_deriv n k c t ht l hpl hln hl x).congr_of_eventuallyEq ?_
    filter_upwards [Ioo_mem_nhds a b] with y hy
    refine sum_congr rfl fun i _ => ?_
    rw [bspline_eq_polar t n y l (span_iff t ht n l hln hl y hy.1.le (Or.inl hy.2))]
  · have hd := spline_deriv n k c t ht l hpl hln hl x
    have hin := (hspan l).2 rfl
    split_ifs with hxn
    · have b : x < t (l + 1) := by
        rcases hin.2.2 with h | ⟨h, -⟩
        · exact h
        · linarith
      refine hd.hasDerivWithinAt.congr_of_eventuallyEq ?_ ?_
      · filter_upwards [inter_mem_nhdsWithin (Set.Ici x) (Iio_mem_nhds b)] with y hy
        refine sum_congr rfl fun i _ => ?_
        rw [bspline_eq_polar t n y l (span_iff t ht n l hln hl y (hl0.trans hy.1) (Or.inl hy.2))]
      · refine sum_congr rfl fun i _ => ?_
        rw [bspline_eq_polar t n x l hspan]
    · have hxe : x = t n := le_antisymm hx1 (not_lt.1 hxn)
      have hle : t (l + 1) = t n := le_antisymm (ht (by omega)) (by rw [← hxe]; exact hl1)
      refine hd.hasDerivWithinAt.congr_of_eventuallyEq ?_ ?_
      · filter_upwards [inter_mem_nhdsWithin (Set.Iic x) (Ioi_mem_nhds (show t l < x by rw [hxe, ← hle]; exact hl))] with y hy
        have h1 : y ≤ x := hy.1
        have h2 : t l < y := hy.2
        refine sum_congr rfl fun i _ => ?_
        rw [bspline_eq_polar t n y l (span_iff t ht n l hln hl y h2.le ?_)]
        rcases h1.lt_or_eq with h | h
        · left; rw [hle, ← hxe]; exact h
        · right; exact ⟨h.trans hxe, hle⟩
      · refine sum_congr rfl fun i _ => ?_
        rw [bspline_eq_polar t n x l hspan]

end

/-- The B-spline `i`, or its derivative (from the right; in the last knot from the left). -/
noncomputable def splineOrDer (der : Bool) (t : Nat → ℝ) (n p i : Nat) (x : ℝ) : ℝ :=
  if der then derivWithin (fun y => bspline t n y p i) (if x < t n then Set.Ici x else Set.Iic x) x else bspline t n x p i

theorem derMat_eq (M : Mat ℝ) (t : Nat → ℝ) (n p : Nat) (ht : OpenKnots t n p) (h1 : 1 ≤ p) (hmult : ∀ i, i + 1 < n → t (i + 1) < t (i + 1 + p))
    (hp : p ≤ 20) (hM : M.cols = n) (pts : List ℝ) (hpts : ∀ x ∈ pts, 0 ≤ x ∧ x ≤ 1) :
    ∃ R, deBoorDerMat M ((List.range (n + p + 1)).map t) pts = some R ∧ R.rows = M.rows ∧ R.cols = pts.length ∧
      ∀ r c (h : c < pts.length), R.entry r c = ∑ i ∈ range n, splineOrDer true t n p i pts[c] * M.entry r i := by
  obtain ⟨k, rfl⟩ : ∃ k, p = k + 1 := ⟨p - 1, by omega⟩
  have hl : t (n - 1) < t n := by rw [ht.last]; exact ht.inner
  have hx : ∀ x ∈ pts, t (k + 1) ≤ x ∧ x ≤ t n := fun x hx => by rw [ht.clamped, ht.last]; exact hpts x hx
  have hm := mapM_eq_some_map (fun x => deBoorDer 20 ((List.range n).map fun c => fun r => M.entry r c) ((List.range (n + (k + 1) + 1)).map t) x) _ pts
    fun x h => deBoorDer_eq 20 n k (fun c => fun r => M.entry r c) t x ht.mono ht.dim hp hl hmult (hx x h).1 (hx x h).2
  refine ⟨⟨M.rows, pts.length, fun r c => (pts.map fun x => ∑ i ∈ range (n - 1), bspline t n x k (i + 1) • (((k + 1 : Nat) : ℝ) / (t (i + 1 + k + 1) - t (i + 1))) •
      ((fun r => M.entry r (i + 1)) - fun r => M.entry r i)).getD c (fun _ => 0) r⟩, ?_, rfl, rfl, fun r c h => ?_⟩
  · unfold deBoorDerMat
    rw [hM, hm]
    rfl
  · have hc := hx _ (List.getElem_mem h)
    simp only [List.getD_eq_getElem?_getD, List.getElem?_map, List.getElem?_eq_getElem h, Option.map_some, Option.getD_some, Finset.sum_apply,
      Pi.smul_apply, Pi.sub_apply, smul_eq_mul]
    set S := if pts[c] < t n then Set.Ici pts[c] else Set.Iic pts[c] with hS
    have hu : UniqueDiffWithinAt ℝ S pts[c] := by
      rw [hS]
      split_ifs
      · exact uniqueDiffOn_Ici _ _ Set.self_mem_Ici
      · exact uniqueDiffOn_Iic _ _ Set.self_mem_Iic
    have hd : ∀ i ∈ range n, HasDerivWithinAt (fun y => bspline t n y (k + 1) i) (splineOrDer true t n (k + 1) i pts[c]) S pts[c] := by
      intro i hi
      obtain ⟨d, -, -, h3⟩ := C08_derivative 20 n (k + 1) (fun j => if j = i then (1 : ℝ) else 0) t pts[c] ht.mono h1 ht.dim hp hl hmult hc.1 hc.2
      simp only [smul_eq_mul, mul_ite, mul_one, mul_zero, sum_ite_eq', hi, if_true] at h3
      have := h3.derivWithin hu
      unfold splineOrDer
      rw [if_pos rfl, this]
      exact h3
    obtain ⟨d, e1, -, e3⟩ := C08_derivative 20 n (k + 1) (fun j => M.entry r j) t pts[c] ht.mono h1 ht.dim hp hl hmult hc.1 hc.2
    rw [deBoorDer_eq 20 n k _ t _ ht.mono ht.dim hp hl hmult hc.1 hc.2, Option.some.injEq] at e1
    simp only [smul_eq_mul] at e1 e3
    rw [e1]
    have e4 : HasDerivWithinAt (fun y => ∑ i ∈ range n, bspline t n y (k + 1) i * M.entry r i) _ S pts[c] :=
      HasDerivWithinAt.fun_sum fun i hi => (hd i hi).mul_const (M.entry r i)
    exact (e3.derivWithin hu).symm.trans (e4.derivWithin hu)

/-- C08: `DeBoorTPDer` evaluates the tensor product spline with the derivatives asked for in each direction (a degree of at least one and knots
repeated at most that many times are needed in the directions of differentiation). -/
theorem C08_tensor_derivative (M : Mat ℝ) (tx ty : Nat → ℝ) (nx ny p q : Nat) (dx dy : Bool) (hx : OpenKnots tx nx p) (hy : OpenKnots ty ny q)
    (hp : p ≤ 20) (hq : q ≤ 20) (mx : dx = true → 1 ≤ p ∧ ∀ i, i + 1 < nx → tx (i + 1) < tx (i + 1 + p))
    (my : dy = true → 1 ≤ q ∧ ∀ i, i + 1 < ny → ty (i + 1) < ty (i + 1 + q)) (hc : M.cols = nx) (hr : M.rows = ny) (ptsX ptsY : List ℝ)
    (hX : ∀ x ∈ ptsX, 0 ≤ x ∧ x ≤ 1) (hY : ∀ y ∈ ptsY, 0 ≤ y ∧ y ≤ 1) :
    ∃ R, deBoorTPDer M ((List.range (nx + p + 1)).map tx) ((List.range (ny + q + 1)).map ty) ptsX ptsY dx dy = some R ∧ R.rows = ptsX.length ∧
      R.cols = ptsY.length ∧ ∀ a b (ha : a < ptsX.length) (hb : b < ptsY.length), R.entry a b =
        ∑ i ∈ range nx, ∑ j ∈ range ny, splineOrDer dx tx nx p i ptsX[a] * splineOrDer dy ty ny q j ptsY[b] * M.entry j i := by
  have one : ∀ (N : Mat ℝ) (t : Nat → ℝ) (n p : Nat) (d : Bool), OpenKnots t n p → p ≤ 20 →
      (d = true → 1 ≤ p ∧ ∀ i, i + 1 < n → t (i + 1) < t (i + 1 + p)) → N.cols = n → ∀ pts : List ℝ, (∀ x ∈ pts, 0 ≤ x ∧ x ≤ 1) →
      ∃ R, (if d then deBoorDerMat N ((List.range (n + p + 1)).map t) pts else deBoorMat N ((List.range (n + p + 1)).map t) pts) = some R ∧
        R.rows = N.rows ∧ R.cols = pts.length ∧ ∀ r c (h : c < pts.length), R.entry r c = ∑ i ∈ range n, splineOrDer d t n p i pts[c] * N.entry r i := by
    intro N t n p d ht hp hm hN pts hpts
    cases d with
    | true => exact derMat_eq N t n p ht (hm rfl).1 (hm rfl).2 hp hN pts hpts
    | false => exact deBoorMat_eq N t n p ht hp hN pts hpts
  obtain ⟨R1, e1, r1, c1, v1⟩ := one M tx nx p dx hx hp mx hc ptsX hX
  obtain ⟨R2, e2, r2, c2, v2⟩ := one (transposeMat R1) ty ny q dy hy hq my (by simp [transposeMat, r1, hr]) ptsY hY
  refine ⟨R2, ?_, by rw [r2]; exact c1, c2, ?_⟩
  · unfold deBoorTPDer
    cases dx with
    | true =>
      rw [if_pos rfl] at e1
      simp only [if_true, e1, Option.bind_eq_bind, Option.bind_some]
      exact e2
    | false =>
      rw [if_neg (by simp)] at e1
      simp only [Bool.false_eq_true, if_false, e1, Option.bind_eq_bind, Option.bind_some]
      exact e2
  · intro a b ha hb
    rw [v2 a b hb, sum_comm]
    refine sum_congr rfl fun j _ => ?_
    simp only [transposeMat]
    rw [v1 j a ha, mul_sum]
    refine sum_congr rfl fun i _ => ?_
    ring

/-- The derivative of the quadratic spline with coefficients 0, 1, 0, 0 on the knots 0, 0, 0, 1/2, 1, 1, 1 exists in all points of the interval. -/
example (x : ℝ) (h0 : 0 ≤ x) (h1 : x ≤ 1) : ∃ d : ℝ, deBoorDer 20 ((List.range 4).map fun i => if i = 1 then (1 : ℝ) else 0) ((List.range 7).map exKnots) x = some d ∧
    ((∀ i, exKnots i ≠ x) → HasDerivAt (fun y => ∑ i ∈ range 4, bspline exKnots 4 y 2 i • (if i = 1 then (1 : ℝ) else 0)) d x) := by
  obtain ⟨d, a, b, -⟩ := C08_derivative 20 4 2 (fun i => if i = 1 then (1 : ℝ) else 0) exKnots x exKnots_open.mono (by norm_num) (by norm_num)
    (by norm_num) (by rw [exKnots_open.last]; exact exKnots_open.inner) (by
      intro i hi
      have : i = 0 ∨ i = 1 ∨ i = 2 := by omega
      rcases this with rfl | rfl | rfl <;> norm_num [exKnots]) (by rw [exKnots_open.clamped]; exact h0) (by rw [exKnots_open.last]; exact h1)
  exact ⟨d, a, b⟩

end Bembel.Props
