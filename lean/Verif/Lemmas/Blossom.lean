import Verif.Lemmas.SpaceRefine
import Mathlib.LinearAlgebra.Dual.Lemmas
/-!
# Uniqueness of polar forms, linear independence of B-splines, traces on patch edges and polynomials
-/

open Finset

namespace Bembel.Refine
open Spec Spl Props Projector Glue Mesh

/-! ### polar forms are determined by their diagonal -/

theorem MultiAffine.bern {g : List ℝ → ℝ} (hg : MultiAffine g) (a b s : ℝ) (hab : a ≠ b) : ∀ k,
    g (List.replicate k ((1 - s) * a + s * b)) = ∑ j ∈ range (k + 1), bern k j s * g (List.replicate (k - j) a ++ List.replicate j b) := by
  intro k
  induction k generalizing g with
  | zero => simp [Spec.bern]
  | succ k ih =>
    rw [List.replicate_succ, ih (hg.cons _), ← bern_blend]
    refine sum_congr rfl fun j hj => ?_
    have hj := mem_range.1 hj
    have hba : b - a ≠ 0 := sub_ne_zero.2 hab.symm
    rw [hg.affine _ a b _ hab]
    have e1 : ((1 - s) * a + s * b - a) / (b - a) = s := by field_simp; ring
    have e2 : (b - ((1 - s) * a + s * b)) / (b - a) = 1 - s := by field_simp; ring
    rw [e1, e2]
    have p1 : g (b :: (List.replicate (k - j) a ++ List.replicate j b)) = g (List.replicate (k + 1 - (j + 1)) a ++ List.replicate (j + 1) b) := by
      rw [show k + 1 - (j + 1) = k - j by omega, List.replicate_succ]
      exact hg.perm _ _ List.perm_middle.symm
    have p2 : g (a :: (List.replicate (k - j) a ++ List.replicate j b)) = g (List.replicate (k + 1 - j) a ++ List.replicate j b) := by
      rw [show k + 1 - j = k - j + 1 by omega, List.replicate_succ, List.cons_append]
    rw [p1, p2]; ring

theorem MultiAffine.zero {g : List ℝ → ℝ} (hg : MultiAffine g) (p : Nat) (a b : ℝ) (hab : a ≠ b)
    (h : ∀ s : ℝ, 0 < s → s < 1 → g (List.replicate p ((1 - s) * a + s * b)) = 0) : ∀ us : List ℝ, us.length = p → g us = 0 := by
  have hb : ∀ j ≤ p, g (List.replicate (p - j) a ++ List.replicate j b) = 0 := by
    refine bern_unisolvent p (fun j => g (List.replicate (p - j) a ++ List.replicate j b)) (fun k => ((k : ℝ) + 1) / (p + 2)) ?_ ?_ ?_
    · intro k hk
      have hk : (k : ℝ) ≤ p := by exact_mod_cast hk
      constructor
      · positivity
      · rw [div_lt_one (by positivity)]; linarith
    · intro k _ l _ e
      have : (p : ℝ) + 2 ≠ 0 := by positivity
      field_simp at e
      exact_mod_cast (by linarith : (k : ℝ) = l)
    · intro k hk
      have hk : (k : ℝ) ≤ p := by exact_mod_cast hk
      rw [← hg.bern a b _ hab]
      exact h _ (by positivity) (by rw [div_lt_one (by positivity)]; linarith)
  have gen : ∀ (us : List ℝ) (k j : Nat), us.length + k + j = p → g (us ++ (List.replicate k a ++ List.replicate j b)) = 0 := by
    intro us
    induction us with
    | nil =>
      intro k j e
      simp only [List.length_nil] at e
      rw [List.nil_append, show k = p - j by omega]
      exact hb j (by omega)
    | cons u us ih =>
      intro k j e
      rw [List.length_cons] at e
      rw [List.cons_append, hg.affine _ a b _ hab]
      have p1 : g (b :: (us ++ (List.replicate k a ++ List.replicate j b))) = g (us ++ (List.replicate k a ++ List.replicate (j + 1) b)) := by
        rw [List.replicate_succ]
        refine hg.perm _ _ ?_
        rw [← List.append_assoc, ← List.append_assoc]
        exact List.perm_middle.symm
      have p2 : g (a :: (us ++ (List.replicate k a ++ List.replicate j b))) = g (us ++ (List.replicate (k + 1) a ++ List.replicate j b)) := by
        rw [List.replicate_succ, List.cons_append]
        exact hg.perm _ _ List.perm_middle.symm
      rw [p1, p2, ih k (j + 1) (by omega), ih (k + 1) j (by omega)]; simp
  intro us hus
  have := gen us 0 0 (by omega)
  simpa using this

theorem multiAffine_sum (N : Nat) (g : Nat → List ℝ → ℝ) (w : Nat → ℝ) (h : ∀ i, MultiAffine (g i)) : MultiAffine fun us => ∑ i ∈ range N, g i us * w i where
  perm us vs e := sum_congr rfl fun i _ => by rw [(h i).perm us vs e]
  affine us a b u hab := by
    rw [mul_sum, mul_sum, ← sum_add_distrib]
    refine sum_congr rfl fun i _ => ?_
    rw [(h i).affine us a b u hab]; ring

/-! ### linear independence -/

theorem piece_independent_real (q n r : Nat) (hq : 1 ≤ q) (hr : 1 ≤ r) (hrq : r ≤ q) (hn : 0 < n) (w : Nat → ℝ)
    (h : ∀ Y < n, ∀ s : ℝ, 0 < s → s < 1 → ∑ u ∈ range (splineDim q n r), piece q n r Y (((Y : ℝ) + s) / n) u * w u = 0) :
    ∀ u < splineDim q n r, w u = 0 := by
  intro j hj
  obtain ⟨f1, f2, f3⟩ := firstElement_spec q n r j hq hr hrq hj hn
  set Y := firstElement q r j with hY
  have mono := uniformKnot_mono q n r hn hr
  have hl := span_knots q n r Y hq hr f1
  obtain ⟨k1, k2⟩ := knot_span q n r Y hq hr f1
  have hn' : (0 : ℝ) < n := by exact_mod_cast hn
  have := MultiAffine.zero (multiAffine_sum (splineDim q n r) (fun i us => polar (uniformKnot q n r) (q - 1 + r * Y) us i) w
    fun i => multiAffine_polar _ mono _ hl i) (q - 1) _ _ hl.ne (by
      intro s h0 h1
      rw [k1, k2]
      have e : (1 - s) * ((Y : ℝ) / n) + s * ((Y + 1) / n) = ((Y : ℝ) + s) / n := by field_simp; ring
      rw [e]
      exact h Y f1 s h0 h1) (knots (uniformKnot q n r) j (q - 1)) (knots_length _ _ _)
  simp only [polar_dual _ mono _ hl (q - 1) j _ f2 f3] at this
  rw [sum_eq_single j] at this
  · simpa using this
  · intro i _ hne; simp [hne]
  · intro h; exact absurd (mem_range.2 hj) h

variable {R : Type} [AddCommGroup R] [Module ℝ R]

/-- The coefficients of a spline are determined by its values inside the elements. -/
theorem piece_independent (q n r : Nat) (hq : 1 ≤ q) (hr : 1 ≤ r) (hrq : r ≤ q) (hn : 0 < n) (w : Nat → R)
    (h : ∀ Y < n, ∀ s : ℝ, 0 < s → s < 1 → ∑ u ∈ range (splineDim q n r), piece q n r Y (((Y : ℝ) + s) / n) u • w u = 0) :
    ∀ u < splineDim q n r, w u = 0 := by
  intro u hu
  rw [← Module.forall_dual_apply_eq_zero_iff ℝ]
  intro φ
  refine piece_independent_real q n r hq hr hrq hn (fun u => φ (w u)) (fun Y hY s h0 h1 => ?_) u hu
  have := congrArg φ (h Y hY s h0 h1)
  rw [map_sum, map_zero] at this
  rw [← this]
  exact sum_congr rfl fun u _ => by rw [map_smul, smul_eq_mul]

/-! ### values of B-splines -/

theorem inSpan_one (q n r : Nat) (hq : 1 ≤ q) (hr : 1 ≤ r) (hn : 0 < n) (i : Nat) :
    inSpan (uniformKnot (K := ℝ) q n r) (splineDim q n r) i 1 ↔ i = q - 1 + r * (n - 1) := by
  have hd := knot_dim q n r hn
  have m := uniformKnot_mono q n r hn hr
  have k := knot_span q n r (n - 1) hq hr (by omega)
  have hn' : (0 : ℝ) < n := by exact_mod_cast hn
  have hc : ((n - 1 : Nat) : ℝ) = (n : ℝ) - 1 := by rw [Nat.cast_sub (by omega)]; simp
  have e : q - 1 + r * (n - 1) + 1 = splineDim q n r := by unfold splineDim; rw [Nat.mul_comm]; omega
  have k1 : (uniformKnot q n r (q - 1 + r * (n - 1)) : ℝ) < 1 := by
    rw [k.1, hc, div_lt_one hn']; linarith
  constructor
  · rintro ⟨h1, h2, h3 | ⟨-, h4, h5⟩⟩
    · have := m (show i + 1 ≤ splineDim q n r by omega)
      rw [hd] at this; linarith
    · by_contra hne
      rw [hd] at h4
      rcases Nat.lt_or_ge i (q - 1 + r * (n - 1)) with h | h
      · have := m (show i + 1 ≤ q - 1 + r * (n - 1) by omega); linarith
      · omega
  · rintro rfl
    refine ⟨by omega, k1.le, Or.inr ⟨hd.symm, by rw [e], ?_⟩⟩
    rw [e, hd]; exact k1

theorem uniformSpline_piece (q n r X : Nat) (hq : 1 ≤ q) (hr : 1 ≤ r) (hX : X < n) (s : ℝ) (h0 : 0 ≤ s) (h1 : s < 1) (i : Nat) :
    uniformSpline q n r i (((X : ℝ) + s) / n) = piece q n r X (((X : ℝ) + s) / n) i :=
  bspline_eq_polar _ _ _ _ (inSpan_element q n r X hq hr hX s h0 h1) _ _

theorem uniformSpline_one (q n r : Nat) (hq : 1 ≤ q) (hr : 1 ≤ r) (hn : 0 < n) (i : Nat) : uniformSpline q n r i 1 = piece q n r (n - 1) 1 i :=
  bspline_eq_polar _ _ _ _ (inSpan_one q n r hq hr hn) _ _

/-- On `[0, 1]` the B-splines are the polynomials of one element. -/
theorem uniformSpline_exists (q n r : Nat) (hq : 1 ≤ q) (hr : 1 ≤ r) (hn : 0 < n) (x : ℝ) (h0 : 0 ≤ x) (h1 : x ≤ 1) :
    ∃ X < n, ∀ i, uniformSpline q n r i x = piece q n r X x i := by
  rcases h1.lt_or_eq with h1 | rfl
  · have hn' : (0 : ℝ) < n := by exact_mod_cast hn
    have hx : 0 ≤ x * n := by positivity
    have e : x = ((⌊x * n⌋₊ : ℝ) + (x * n - ⌊x * n⌋₊)) / n := by field_simp; ring
    have hX : ⌊x * n⌋₊ < n := by rw [Nat.floor_lt hx]; nlinarith
    refine ⟨⌊x * n⌋₊, hX, fun i => ?_⟩
    conv_lhs => rw [e]
    rw [uniformSpline_piece q n r _ hq hr hX _ (by linarith [Nat.floor_le hx]) (by linarith [Nat.lt_floor_add_one (x * (n : ℝ))]), ← e]
  · exact ⟨n - 1, by omega, fun i => uniformSpline_one q n r hq hr hn i⟩

theorem piece_reverse (q n r X : Nat) (hq : 1 ≤ q) (hr : 1 ≤ r) (hX : X < n) (x : ℝ) (i : Nat) (hi : i < splineDim q n r) :
    piece q n r X x i = piece q n r (n - 1 - X) (1 - x) (splineDim q n r - 1 - i) := by
  have hXr : r * (n - 1 - X) = (n - 1) * r - r * X := by rw [Nat.mul_sub, Nat.mul_comm r (n - 1)]
  have hXle : r * X ≤ (n - 1) * r := by rw [Nat.mul_comm]; exact Nat.mul_le_mul_right _ (by omega)
  unfold piece
  rw [polar_reverse _ (splineDim q n r + q - 1) _ (knot_reverse q n r hq (by omega) hr) (by unfold splineDim; omega) _ i
    (by rw [List.length_replicate]; omega), List.length_replicate, List.map_replicate]
  rw [show splineDim q n r + q - 1 - 1 - i - (q - 1) = splineDim q n r - 1 - i by omega,
    show splineDim q n r + q - 1 - 1 - (q - 1 + r * X) = q - 1 + r * (n - 1 - X) by unfold splineDim; omega]

theorem uniformSpline_zero (q n r : Nat) (hq : 1 ≤ q) (hr : 1 ≤ r) (hn : 0 < n) (i : Nat) : uniformSpline q n r i 0 = if i = 0 then 1 else 0 := by
  have := uniformSpline_piece q n r 0 hq hr hn 0 le_rfl one_pos i
  simp only [Nat.cast_zero, zero_add, zero_div] at this
  rw [this]
  unfold piece
  have hs := span_knots q n r 0 hq hr hn
  have e : List.replicate (q - 1) (0 : ℝ) = knots (uniformKnot q n r) 0 (q - 1) := by
    refine List.ext_getElem (by simp [knots]) fun m h1 _ => ?_
    rw [List.length_replicate] at h1
    simp [knots, uniformKnot, show 0 + 1 + m < q by omega]
  rw [e, polar_dual _ (uniformKnot_mono q n r hn hr) _ hs _ _ _ (by omega) (by omega)]

theorem uniformSpline_last (q n r : Nat) (hq : 1 ≤ q) (hr : 1 ≤ r) (hn : 0 < n) (i : Nat) (hi : i < splineDim q n r) :
    uniformSpline q n r i 1 = if i = splineDim q n r - 1 then 1 else 0 := by
  rw [uniformSpline_one q n r hq hr hn, piece_reverse q n r (n - 1) hq hr (by omega) 1 i hi, sub_self, Nat.sub_self]
  have h0 := uniformSpline_zero q n r hq hr hn (splineDim q n r - 1 - i)
  have := uniformSpline_piece q n r 0 hq hr hn 0 le_rfl one_pos (splineDim q n r - 1 - i)
  simp only [Nat.cast_zero, zero_add, zero_div] at this
  rw [← this, h0]
  exact if_congr (by omega) rfl rfl

theorem uniformSpline_reverse (q n r Y : Nat) (hq : 1 ≤ q) (hr : 1 ≤ r) (hY : Y < n) (s : ℝ) (h0 : 0 < s) (h1 : s < 1) (i : Nat) (hi : i < splineDim q n r) :
    uniformSpline q n r i (1 - ((Y : ℝ) + s) / n) = piece q n r Y (((Y : ℝ) + s) / n) (splineDim q n r - 1 - i) := by
  have hn : (0 : ℝ) < n := by exact_mod_cast (by omega : 0 < n)
  have e : 1 - ((Y : ℝ) + s) / n = (((n - 1 - Y : Nat) : ℝ) + (1 - s)) / n := by
    rw [Nat.cast_sub (by omega), Nat.cast_sub (by omega)]
    field_simp; push_cast; ring
  rw [e, uniformSpline_piece q n r _ hq hr (by omega) _ (by linarith) (by linarith), ← e, piece_reverse q n r _ hq hr (by omega) _ i hi]
  rw [show n - 1 - (n - 1 - Y) = Y by omega, sub_sub_cancel]

/-! ### traces -/

/-- The function with coefficients `g` on a patch. -/
noncomputable def splineFun (qx qy n r : Nat) (g : Nat → R) (x : ℝ × ℝ) : R :=
  ∑ c ∈ range (splineDim qx n r * splineDim qy n r), patchSpline qx qy n r c x • g c

theorem splineFun_pairs (qx qy n r : Nat) (g : Nat → R) (x : ℝ × ℝ) :
    splineFun qx qy n r g x = ∑ j ∈ range (splineDim qy n r), ∑ i ∈ range (splineDim qx n r),
      (uniformSpline qx n r i x.1 * uniformSpline qy n r j x.2) • g (j * splineDim qx n r + i) := by
  unfold splineFun patchSpline
  rw [Nat.mul_comm (splineDim qx n r), H2.sum_range_mul]
  refine sum_congr rfl fun j _ => sum_congr rfl fun i hi => ?_
  rw [(divmod_pair (mem_range.1 hi)).1, (divmod_pair (mem_range.1 hi)).2]

/-- Inside the elements the function is the polynomial of the element. -/
theorem splineFun_patchValue (qx qy n r X Y : Nat) (hqx : 1 ≤ qx) (hqy : 1 ≤ qy) (hr : 1 ≤ r) (hX : X < n) (hY : Y < n) (g : Nat → R) (s : ℝ × ℝ)
    (h1 : 0 ≤ s.1) (h2 : s.1 < 1) (h3 : 0 ≤ s.2) (h4 : s.2 < 1) :
    splineFun qx qy n r g (((X : ℝ) + s.1) / n, ((Y : ℝ) + s.2) / n) = patchValue qx qy n r X Y g (((X : ℝ) + s.1) / n, ((Y : ℝ) + s.2) / n) := by
  rw [splineFun_pairs]
  unfold patchValue
  refine sum_congr rfl fun j _ => sum_congr rfl fun i _ => ?_
  rw [uniformSpline_piece qx n r X hqx hr hX s.1 h1 h2, uniformSpline_piece qy n r Y hqy hr hY s.2 h3 h4]

theorem splineFun_edge (qx qy n r i Y : Nat) (hqx : 1 ≤ qx) (hqy : 1 ≤ qy) (hr : 1 ≤ r) (hi : i < 4) (hY : Y < n) (g : Nat → R) (s : ℝ)
    (h0 : 0 < s) (h1 : s < 1) :
    splineFun qx qy n r g (edgePoint i (((Y : ℝ) + s) / n)) = ∑ u ∈ range (splineDim (edgeOrder qx qy i) n r),
      piece (edgeOrder qx qy i) n r Y (((Y : ℝ) + s) / n) u • g (edgeY (splineDim qy n r) i u * splineDim qx n r + edgeX (splineDim qx n r) i u) := by
  have hn : 0 < n := by omega
  have hcx := dim_pos qx n r hqx
  have hcy := dim_pos qy n r hqy
  have row : ∀ (c : Nat → ℝ) (y0 : Nat) (F : Nat → Nat → R), (∀ j < splineDim qy n r, c j = if j = y0 then 1 else 0) → y0 < splineDim qy n r → ∀ w : Nat → ℝ,
      ∑ j ∈ range (splineDim qy n r), ∑ i ∈ range (splineDim qx n r), (w i * c j) • F j i = ∑ i ∈ range (splineDim qx n r), w i • F y0 i := by
    intro c y0 F hc hy w
    rw [sum_eq_single y0]
    · simp [hc y0 hy]
    · intro j hj hne
      simp [hc j (mem_range.1 hj), hne]
    · intro h; exact absurd (mem_range.2 hy) h
  have colm : ∀ (c : Nat → ℝ) (x0 : Nat) (F : Nat → Nat → R), (∀ j < splineDim qx n r, c j = if j = x0 then 1 else 0) → x0 < splineDim qx n r → ∀ w : Nat → ℝ,
      ∑ j ∈ range (splineDim qy n r), ∑ i ∈ range (splineDim qx n r), (c i * w j) • F j i = ∑ j ∈ range (splineDim qy n r), w j • F j x0 := by
    intro c x0 F hc hx w
    refine sum_congr rfl fun j _ => ?_
    rw [sum_eq_single x0]
    · simp [hc x0 hx]
    · intro i hi hne
      simp [hc i (mem_range.1 hi), hne]
    · intro h; exact absurd (mem_range.2 hx) h
  rw [splineFun_pairs]
  rcases four_cases hi with rfl | rfl | rfl | rfl
  · simp only [edgePoint, edgeX, edgeY, edgeOrder, if_true, true_or]
    rw [row _ 0 (fun j i => g (j * splineDim qx n r + i)) (fun j _ => uniformSpline_zero qy n r hqy hr hn j) hcy]
    exact sum_congr rfl fun u _ => by rw [uniformSpline_piece qx n r Y hqx hr hY s h0.le h1]
  · simp only [edgePoint, edgeX, edgeY, edgeOrder]
    norm_num
    rw [colm _ _ (fun j i => g (j * splineDim qx n r + i)) (fun j hj => uniformSpline_last qx n r hqx hr hn j hj) (by omega)]
    exact sum_congr rfl fun u _ => by rw [uniformSpline_piece qy n r Y hqy hr hY s h0.le h1]
  · simp only [edgePoint, edgeX, edgeY, edgeOrder]
    norm_num
    rw [row _ _ (fun j i => g (j * splineDim qx n r + i)) (fun j hj => uniformSpline_last qy n r hqy hr hn j hj) (by omega), ← sum_range_reflect]
    refine sum_congr rfl fun u hu => ?_
    have hu := mem_range.1 hu
    rw [uniformSpline_reverse qx n r Y hqx hr hY s h0 h1 _ (by omega), show splineDim qx n r - 1 - (splineDim qx n r - 1 - u) = u by omega]
  · simp only [edgePoint, edgeX, edgeY, edgeOrder]
    norm_num
    rw [colm _ 0 (fun j i => g (j * splineDim qx n r + i)) (fun j _ => uniformSpline_zero qx n r hqx hr hn j) hcx, ← sum_range_reflect]
    refine sum_congr rfl fun u hu => ?_
    have hu := mem_range.1 hu
    rw [uniformSpline_reverse qy n r Y hqy hr hY s h0 h1 _ (by omega), show splineDim qy n r - 1 - (splineDim qy n r - 1 - u) = u by omega, Nat.add_zero]

/-- Functions which match along an edge have matching coefficients on the edge. -/
theorem match_coefficients (qx qy qx' qy' n r i k : Nat) (hqx : 1 ≤ qx) (hqy : 1 ≤ qy) (hqx' : 1 ≤ qx') (hqy' : 1 ≤ qy') (hr : 1 ≤ r) (hn : 0 < n)
    (hi : i < 4) (hk : k < 4) (q : Nat) (h1 : edgeOrder qx qy i = q) (h2 : edgeOrder qx' qy' k = q) (hrq : r ≤ q) (g g' : Nat → R) (u v : ℝ)
    (hg : ∀ Y < n, ∀ s : ℝ, 0 < s → s < 1 → u • splineFun qx qy n r g (edgePoint i (((Y : ℝ) + s) / n)) + v • splineFun qx' qy' n r g' (edgePoint k (1 - ((Y : ℝ) + s) / n)) = 0) :
    ∀ s < splineDim q n r, u • g (edgeY (splineDim qy n r) i s * splineDim qx n r + edgeX (splineDim qx n r) i s) +
      v • g' (edgeY (splineDim qy' n r) k (splineDim q n r - 1 - s) * splineDim qx' n r + edgeX (splineDim qx' n r) k (splineDim q n r - 1 - s)) = 0 := by
  have hq : 1 ≤ q := by rw [← h1]; unfold edgeOrder; split_ifs <;> assumption
  refine piece_independent q n r hq hr hrq hn (fun s => u • g (edgeY (splineDim qy n r) i s * splineDim qx n r + edgeX (splineDim qx n r) i s) +
    v • g' (edgeY (splineDim qy' n r) k (splineDim q n r - 1 - s) * splineDim qx' n r + edgeX (splineDim qx' n r) k (splineDim q n r - 1 - s))) ?_
  intro Y hY s h0 h1s
  have hn' : (0 : ℝ) < n := by exact_mod_cast hn
  have key := hg Y hY s h0 h1s
  have e : 1 - ((Y : ℝ) + s) / n = (((n - 1 - Y : Nat) : ℝ) + (1 - s)) / n := by
    rw [Nat.cast_sub (by omega), Nat.cast_sub (by omega)]
    field_simp; push_cast; ring
  rw [splineFun_edge qx qy n r i Y hqx hqy hr hi hY g s h0 h1s, e, splineFun_edge qx' qy' n r k _ hqx' hqy' hr hk (by omega) g' (1 - s) (by linarith) (by linarith),
    h1, h2, ← e, ← sum_range_reflect (fun w => piece q n r (n - 1 - Y) (1 - ((Y : ℝ) + s) / n) w • _), smul_sum, smul_sum, ← sum_add_distrib] at key
  rw [← key]
  refine sum_congr rfl fun w hw => ?_
  have hw := mem_range.1 hw
  rw [← piece_reverse q n r Y hq hr hY _ w hw, smul_add, smul_comm u, smul_comm v]

/-! ### polynomials -/

/-- Conversely functions with matching coefficients on the edge match. -/
theorem match_values (qx qy qx' qy' n r i k : Nat) (hqx : 1 ≤ qx) (hqy : 1 ≤ qy) (hqx' : 1 ≤ qx') (hqy' : 1 ≤ qy') (hr : 1 ≤ r)
    (hi : i < 4) (hk : k < 4) (q : Nat) (h1 : edgeOrder qx qy i = q) (h2 : edgeOrder qx' qy' k = q) (g g' : Nat → R) (u v : ℝ)
    (hg : ∀ s < splineDim q n r, u • g (edgeY (splineDim qy n r) i s * splineDim qx n r + edgeX (splineDim qx n r) i s) +
      v • g' (edgeY (splineDim qy' n r) k (splineDim q n r - 1 - s) * splineDim qx' n r + edgeX (splineDim qx' n r) k (splineDim q n r - 1 - s)) = 0) :
    ∀ Y < n, ∀ s : ℝ, 0 < s → s < 1 → u • splineFun qx qy n r g (edgePoint i (((Y : ℝ) + s) / n)) + v • splineFun qx' qy' n r g' (edgePoint k (1 - ((Y : ℝ) + s) / n)) = 0 := by
  intro Y hY s h0 h1s
  have hq : 1 ≤ q := by rw [← h1]; unfold edgeOrder; split_ifs <;> assumption
  have hn' : (0 : ℝ) < n := by exact_mod_cast (by omega : 0 < n)
  have e : 1 - ((Y : ℝ) + s) / n = (((n - 1 - Y : Nat) : ℝ) + (1 - s)) / n := by
    rw [Nat.cast_sub (by omega), Nat.cast_sub (by omega)]
    field_simp; push_cast; ring
  rw [splineFun_edge qx qy n r i Y hqx hqy hr hi hY g s h0 h1s, e, splineFun_edge qx' qy' n r k _ hqx' hqy' hr hk (by omega) g' (1 - s) (by linarith) (by linarith),
    h1, h2, ← e, ← sum_range_reflect (fun w => piece q n r (n - 1 - Y) (1 - ((Y : ℝ) + s) / n) w • _), smul_sum, smul_sum, ← sum_add_distrib]
  refine sum_eq_zero fun w hw => ?_
  have hw := mem_range.1 hw
  rw [← piece_reverse q n r Y hq hr hY _ w hw, smul_comm u, smul_comm v, ← smul_add, hg w hw, smul_zero]

/-- Elementary symmetric polynomials. -/
def esymm : Nat → List ℝ → ℝ
  | 0, _ => 1
  | _ + 1, [] => 0
  | m + 1, u :: us => u * esymm m us + esymm (m + 1) us

theorem esymm_perm {us vs : List ℝ} (h : us.Perm vs) : ∀ m, esymm m us = esymm m vs := by
  induction h with
  | nil => intro m; rfl
  | cons u _ ih => intro m; cases m with
    | zero => simp [esymm]
    | succ m => simp only [esymm, ih]
  | swap u v l => intro m; match m with
    | 0 => simp [esymm]
    | 1 => simp only [esymm]; ring
    | m + 2 => simp only [esymm]; ring
  | trans _ _ ih1 ih2 => intro m; rw [ih1, ih2]

theorem esymm_affine (m : Nat) : MultiAffine (esymm m) where
  perm _ _ e := esymm_perm e m
  affine us a b u hab := by
    have h : b - a ≠ 0 := sub_ne_zero.2 hab.symm
    cases m with
    | zero => simp only [esymm]; field_simp; ring
    | succ m => simp only [esymm]; field_simp; ring

theorem esymm_replicate (x : ℝ) : ∀ p m, esymm m (List.replicate p x) = p.choose m * x ^ m
  | p, 0 => by simp [esymm]
  | 0, m + 1 => by simp [esymm]
  | p + 1, m + 1 => by
    rw [List.replicate_succ, esymm, esymm_replicate x p m, esymm_replicate x p (m + 1), Nat.choose_succ_succ]
    push_cast; ring

/-- Coefficient of B-spline `i` in the monomial of degree `m`. -/
noncomputable def monoCoef (q n r m i : Nat) : ℝ := esymm m (knots (uniformKnot q n r) i (q - 1)) / ((q - 1).choose m : ℝ)

theorem mono_piece (q n r m X : Nat) (hq : 1 ≤ q) (hr : 1 ≤ r) (hX : X < n) (hm : m < q) (x : ℝ) :
    ∑ i ∈ range (splineDim q n r), piece q n r X x i * monoCoef q n r m i = x ^ m := by
  have := reproduce (uniformKnot q n r) (uniformKnot_mono q n r (by omega) hr) (q - 1 + r * X) (splineDim q n r) (span_knots q n r X hq hr hX) (span_lt q n r X hq hX)
    (List.replicate (q - 1) x) _ (esymm_affine m) (by rw [List.length_replicate]; omega)
  rw [List.length_replicate, esymm_replicate] at this
  have hc : ((q - 1).choose m : ℝ) ≠ 0 := by exact_mod_cast (Nat.choose_pos (by omega)).ne'
  unfold monoCoef piece
  rw [← mul_right_inj' hc, ← this, mul_sum]
  refine sum_congr rfl fun i _ => ?_
  field_simp

/-- Polynomials are splines. -/
theorem poly_spline (qx qy n r : Nat) (hqx : 1 ≤ qx) (hqy : 1 ≤ qy) (hr : 1 ≤ r) (hn : 0 < n) (c : Nat → Nat → R) (x : ℝ × ℝ)
    (h1 : 0 ≤ x.1) (h2 : x.1 ≤ 1) (h3 : 0 ≤ x.2) (h4 : x.2 ≤ 1) :
    splineFun qx qy n r (fun d => ∑ m ∈ range qx, ∑ l ∈ range qy,
      (monoCoef qx n r m (d % splineDim qx n r) * monoCoef qy n r l (d / splineDim qx n r)) • c m l) x = ∑ m ∈ range qx, ∑ l ∈ range qy, (x.1 ^ m * x.2 ^ l) • c m l := by
  obtain ⟨X, hX, eX⟩ := uniformSpline_exists qx n r hqx hr hn x.1 h1 h2
  obtain ⟨Y, hY, eY⟩ := uniformSpline_exists qy n r hqy hr hn x.2 h3 h4
  rw [splineFun_pairs]
  have e : ∀ j ∈ range (splineDim qy n r), ∀ i ∈ range (splineDim qx n r),
      (uniformSpline qx n r i x.1 * uniformSpline qy n r j x.2) • (∑ m ∈ range qx, ∑ l ∈ range qy,
        (monoCoef qx n r m ((j * splineDim qx n r + i) % splineDim qx n r) * monoCoef qy n r l ((j * splineDim qx n r + i) / splineDim qx n r)) • c m l) =
      ∑ m ∈ range qx, ∑ l ∈ range qy, ((piece qx n r X x.1 i * monoCoef qx n r m i) * (piece qy n r Y x.2 j * monoCoef qy n r l j)) • c m l := by
    intro j _ i hi
    rw [(divmod_pair (mem_range.1 hi)).1, (divmod_pair (mem_range.1 hi)).2, eX, eY, smul_sum]
    refine sum_congr rfl fun m _ => ?_
    rw [smul_sum]
    refine sum_congr rfl fun l _ => ?_
    rw [smul_smul]; congr 1; ring
  rw [sum_congr rfl fun j hj => sum_congr rfl fun i hi => e j hj i hi]
  conv_lhs => rw [sum_congr rfl fun j _ => sum_comm, sum_comm]
  refine sum_congr rfl fun m hm => ?_
  conv_lhs => rw [sum_congr rfl fun j _ => sum_comm, sum_comm]
  refine sum_congr rfl fun l hl => ?_
  rw [← mono_piece qx n r m X hqx hr hX (mem_range.1 hm) x.1, ← mono_piece qy n r l Y hqy hr hY (mem_range.1 hl) x.2, sum_mul_sum, sum_comm, sum_smul]
  refine sum_congr rfl fun i _ => ?_
  rw [sum_smul]

end Bembel.Refine
