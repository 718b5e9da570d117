import Verif.Lemmas.KnotRefine
import Verif.Props.Projector
import Verif.Lemmas.GlueEdges
/-!
# Refinement of tensor product splines and their traces on the patch edges
-/

open Finset

namespace Bembel.Refine
open Spec Spl Props Projector Glue

/-- The polynomial which B-spline `i` is on element `X`. -/
noncomputable def piece (q n r X : Nat) (x : ℝ) (i : Nat) : ℝ := polar (uniformKnot q n r) (q - 1 + r * X) (List.replicate (q - 1) x) i

theorem piece_bern (p q n r X d : Nat) (hq : 1 ≤ q) (hpq : q = p + 1 ∨ q = p) (hr : 1 ≤ r) (hX : X < n) (s : ℝ) :
    piece q n r X (((X : ℝ) + s) / n) d = ∑ j ∈ range (p + 1), bern p j s * coef p q n r X d j := by
  have hn : (0 : ℝ) < n := by exact_mod_cast (by omega : 0 < n)
  obtain ⟨k1, k2⟩ := knot_span q n r X hq hr hX
  have e : ((X : ℝ) + s) / n = (1 - s) * uniformKnot q n r (q - 1 + r * X) + s * uniformKnot q n r (q - 1 + r * X + 1) := by
    rw [k1, k2]; field_simp; ring
  unfold piece
  rw [e, polar_bern _ (uniformKnot_mono q n r (by omega) hr) _ (span_knots q n r X hq hr hX)]
  by_cases h : q = p + 1
  · subst h
    refine sum_congr rfl fun j _ => ?_
    rw [coef, if_pos rfl]; rfl
  · obtain rfl : q = p := by omega
    obtain ⟨k, rfl⟩ : ∃ k, q = k + 1 := ⟨q - 1, by omega⟩
    rw [show k + 1 - 1 = k by omega, bern_elevate]
    refine sum_congr rfl fun j _ => ?_
    rw [coef, if_neg h]
    push_cast; rfl

theorem piece_refine (q n r i Y : Nat) (hq : 1 ≤ q) (hr : 1 ≤ r) (hrq : r ≤ q) (hY : Y < 2 * n) (x : ℝ) :
    piece q n r (Y / 2) x i = ∑ j ∈ range (splineDim q (2 * n) r), refineCoef q n r i j * piece q (2 * n) r Y x j := by
  have l1 := span_knots q n r (Y / 2) hq hr (by omega)
  have l2 := span_knots q (2 * n) r Y hq hr hY
  have m1 := uniformKnot_mono q n r (by omega) hr
  have m2 := uniformKnot_mono q (2 * n) r (by omega) hr
  have := reproduce (uniformKnot q (2 * n) r) m2 (q - 1 + r * Y) (splineDim q (2 * n) r) l2 (span_lt q (2 * n) r Y hq hY)
    (List.replicate (q - 1) x) _ (multiAffine_polar _ m1 _ l1 i) (by rw [List.length_replicate]; omega)
  rw [List.length_replicate] at this
  unfold piece
  rw [← this]
  refine sum_congr rfl fun j hj => ?_
  by_cases hs : q - 1 + r * Y < j ∨ j + (q - 1) < q - 1 + r * Y
  · rw [polar_support _ _ _ j (by rw [List.length_replicate]; exact hs), mul_zero, mul_zero]
  · rw [refineCoef_eq q n r i j Y hq hr hrq hY (by omega) (by omega)]

variable {R : Type} [AddCommGroup R] [Module ℝ R]

/-- Value at the point `x` of the patch of the function with coefficients `g`, as polynomial on element `(X, Y)`. -/
noncomputable def patchValue (qx qy n r X Y : Nat) (g : Nat → R) (x : ℝ × ℝ) : R :=
  ∑ j ∈ range (splineDim qy n r), ∑ i ∈ range (splineDim qx n r), (piece qx n r X x.1 i * piece qy n r Y x.2 j) • g (j * splineDim qx n r + i)

theorem elementValue_piece (P qx qy n r X Y : Nat) (hP : P ≤ 4) (hqx : 1 ≤ qx) (hqy : 1 ≤ qy) (hx : qx = P + 1 ∨ qx = P) (hy : qy = P + 1 ∨ qy = P)
    (hr : 1 ≤ r) (hX : X < n) (hY : Y < n) (g : Nat → R) (s : ℝ × ℝ) :
    elementValue P qx qy n r X Y g s = patchValue qx qy n r X Y g (((X : ℝ) + s.1) / n, ((Y : ℝ) + s.2) / n) := by
  rw [elementValue_pairs _ _ _ _ _ _ _ hqx]
  unfold patchValue
  simp only [piece_bern P qx n r X _ hqx hx hr hX, piece_bern P qy n r Y _ hqy hy hr hY]
  have hc : ∀ jy ∈ range (P + 1), ∀ jx ∈ range (P + 1), ∀ x y, cut (coef P qx n r X x jx * coef P qy n r Y y jy) = coef P qx n r X x jx * coef P qy n r Y y jy := by
    intro jy hjy jx hjx x y
    have hjy := mem_range.1 hjy
    have hjx := mem_range.1 hjx
    have := cut_exact P qx qy n r X Y x y (jy * (P + 1) + jx) hP hqx hqy hx hy hr hX hY (by
      have : (jy + 1) * (P + 1) ≤ (P + 1) * (P + 1) := Nat.mul_le_mul_right _ (by omega)
      rw [Nat.add_mul, Nat.one_mul] at this
      omega)
    rwa [coef2, (divmod_pair hjx).1, (divmod_pair hjx).2] at this
  rw [sum_congr rfl fun jy hjy => sum_congr rfl fun jx hjx => sum_congr rfl fun y _ => sum_congr rfl fun x _ => by rw [hc jy hjy jx hjx x y]]
  rw [sum_congr rfl fun jy _ => sum_comm, sum_comm]
  refine sum_congr rfl fun y _ => ?_
  rw [sum_congr rfl fun jy _ => sum_comm, sum_comm]
  refine sum_congr rfl fun x _ => ?_
  rw [sum_mul_sum, sum_comm, sum_smul]
  refine sum_congr rfl fun jx _ => ?_
  rw [sum_smul]
  refine sum_congr rfl fun jy _ => ?_
  congr 1; ring

/-- Coefficients after halving the elements. -/
noncomputable def refine2 (qx qy n r : Nat) (g : Nat → R) (c : Nat) : R :=
  ∑ j ∈ range (splineDim qy n r), ∑ i ∈ range (splineDim qx n r),
    (refineCoef qx n r i (c % splineDim qx (2 * n) r) * refineCoef qy n r j (c / splineDim qx (2 * n) r)) • g (j * splineDim qx n r + i)

theorem patchValue_refine (qx qy n r X Y : Nat) (hqx : 1 ≤ qx) (hqy : 1 ≤ qy) (hr : 1 ≤ r) (hrx : r ≤ qx) (hry : r ≤ qy) (hX : X < 2 * n) (hY : Y < 2 * n)
    (g : Nat → R) (x : ℝ × ℝ) :
    patchValue qx qy n r (X / 2) (Y / 2) g x = patchValue qx qy (2 * n) r X Y (refine2 qx qy n r g) x := by
  unfold patchValue refine2
  simp only [piece_refine qx n r _ X hqx hr hrx hX, piece_refine qy n r _ Y hqy hr hry hY]
  have e : ∀ j' ∈ range (splineDim qy (2 * n) r), ∀ i' ∈ range (splineDim qx (2 * n) r),
      (piece qx (2 * n) r X x.1 i' * piece qy (2 * n) r Y x.2 j') • ∑ j ∈ range (splineDim qy n r), ∑ i ∈ range (splineDim qx n r),
        (refineCoef qx n r i ((j' * splineDim qx (2 * n) r + i') % splineDim qx (2 * n) r) *
          refineCoef qy n r j ((j' * splineDim qx (2 * n) r + i') / splineDim qx (2 * n) r)) • g (j * splineDim qx n r + i) =
      ∑ j ∈ range (splineDim qy n r), ∑ i ∈ range (splineDim qx n r),
        ((refineCoef qx n r i i' * piece qx (2 * n) r X x.1 i') * (refineCoef qy n r j j' * piece qy (2 * n) r Y x.2 j')) • g (j * splineDim qx n r + i) := by
    intro j' _ i' hi'
    have hi' := mem_range.1 hi'
    rw [(divmod_pair hi').1, (divmod_pair hi').2, smul_sum]
    refine sum_congr rfl fun j _ => ?_
    rw [smul_sum]
    refine sum_congr rfl fun i _ => ?_
    rw [smul_smul]; congr 1; ring
  rw [sum_congr rfl fun j' hj' => sum_congr rfl fun i' hi' => e j' hj' i' hi']
  conv_rhs => rw [sum_congr rfl fun j' _ => sum_comm, sum_comm]
  refine sum_congr rfl fun j _ => ?_
  conv_rhs => rw [sum_congr rfl fun j' _ => sum_comm, sum_comm]
  refine sum_congr rfl fun i _ => ?_
  rw [sum_mul_sum, sum_comm, sum_smul]
  refine sum_congr rfl fun j' _ => ?_
  rw [sum_smul]

/-- Order of the splines along edge `i`. -/
abbrev edgeOrder (qx qy i : Nat) : Nat := if i = 0 ∨ i = 2 then qx else qy

theorem dim_pos (q n r : Nat) (hq : 1 ≤ q) : 0 < splineDim q n r := by unfold splineDim; omega

/-- The coefficients on an edge of the patch after refinement depend only on those on this edge. -/
theorem refine2_edge (qx qy n r i s : Nat) (hqx : 1 ≤ qx) (hqy : 1 ≤ qy) (hr : 1 ≤ r) (hrx : r ≤ qx) (hry : r ≤ qy) (hn : 0 < n) (hi : i < 4)
    (hs : s < splineDim (edgeOrder qx qy i) (2 * n) r) (g : Nat → R) :
    refine2 qx qy n r g (edgeY (splineDim qy (2 * n) r) i s * splineDim qx (2 * n) r + edgeX (splineDim qx (2 * n) r) i s) =
      ∑ u ∈ range (splineDim (edgeOrder qx qy i) n r), refineCoef (edgeOrder qx qy i) n r u s •
        g (edgeY (splineDim qy n r) i u * splineDim qx n r + edgeX (splineDim qx n r) i u) := by
  have hdx := dim_pos qx (2 * n) r hqx
  have hdy := dim_pos qy (2 * n) r hqy
  have hcx := dim_pos qx n r hqx
  have hcy := dim_pos qy n r hqy
  have hX : edgeX (splineDim qx (2 * n) r) i s < splineDim qx (2 * n) r := by
    unfold edgeX
    split_ifs with h1 h2 h3
    · simpa [edgeOrder, h1] using hs
    · omega
    · omega
    · omega
  unfold refine2
  rw [(divmod_pair hX).1, (divmod_pair hX).2]
  have row : ∀ (c : Nat → ℝ) (y0 : Nat) (F : Nat → Nat → R), (∀ j < splineDim qy n r, c j = if j = y0 then 1 else 0) → y0 < splineDim qy n r → ∀ w : Nat → ℝ,
      ∑ j ∈ range (splineDim qy n r), ∑ i ∈ range (splineDim qx n r), (w i * c j) • F j i = ∑ i ∈ range (splineDim qx n r), w i • F y0 i := by
    intro c y0 F hc hy w
    rw [sum_eq_single y0]
    · simp [hc y0 hy]
    · intro j hj hne
      simp [hc j (mem_range.1 hj), hne]
    · intro h; exact absurd (mem_range.2 hy) h
  have colm : ∀ (c : Nat → ℝ) (x0 : Nat) (F : Nat → Nat → R), (∀ j < splineDim qx n r, c j = if j = x0 then 1 else 0) → x0 < splineDim qx n r → ∀ w : Nat → ℝ,
      ∑ j ∈ range (splineDim qy n r), ∑ i ∈ range (splineDim qx n r), (c i * w j) • F j i = ∑ j ∈ range (splineDim qy n r), w j • F j x0 := by
    intro c x0 F hc hx w
    refine sum_congr rfl fun j _ => ?_
    rw [sum_eq_single x0]
    · simp [hc x0 hx]
    · intro i hi hne
      simp [hc i (mem_range.1 hi), hne]
    · intro h; exact absurd (mem_range.2 hx) h
  rcases four_cases hi with rfl | rfl | rfl | rfl
  · simp only [edgeX, edgeY, edgeOrder, if_true, true_or] at hs ⊢
    exact row _ 0 (fun j i => g (j * splineDim qx n r + i)) (fun j _ => refineCoef_first qy n r j hqy hr hry hn) hcy _
  · simp only [edgeX, edgeY, edgeOrder] at hs ⊢
    norm_num at hs ⊢
    exact colm _ _ (fun j i => g (j * splineDim qx n r + i)) (fun j hj => refineCoef_last qx n r j hqx hr hrx hn hj) (by omega) _
  · simp only [edgeX, edgeY, edgeOrder] at hs ⊢
    norm_num at hs ⊢
    rw [row _ _ (fun j i => g (j * splineDim qx n r + i)) (fun j hj => refineCoef_last qy n r j hqy hr hry hn hj) (by omega), ← sum_range_reflect]
    refine sum_congr rfl fun u hu => ?_
    have hu := mem_range.1 hu
    rw [refineCoef_reverse qx n r u s hqx hr hrx hn hu hs]
  · simp only [edgeX, edgeY, edgeOrder] at hs ⊢
    norm_num at hs ⊢
    rw [colm _ 0 (fun j i => g (j * splineDim qx n r + i)) (fun j _ => refineCoef_first qx n r j hqx hr hrx hn) hcx, ← sum_range_reflect]
    refine sum_congr rfl fun u hu => ?_
    have hu := mem_range.1 hu
    rw [refineCoef_reverse qy n r u s hqy hr hry hn hu hs, Nat.add_zero]

/-- Matching coefficients on facing edges match after refinement. -/
theorem refine2_match (qx qy qx' qy' n r i k : Nat) (hqx : 1 ≤ qx) (hqy : 1 ≤ qy) (hqx' : 1 ≤ qx') (hqy' : 1 ≤ qy') (hr : 1 ≤ r) (hrx : r ≤ qx) (hry : r ≤ qy)
    (hrx' : r ≤ qx') (hry' : r ≤ qy') (hn : 0 < n) (hi : i < 4) (hk : k < 4) (q : Nat) (h1 : edgeOrder qx qy i = q) (h2 : edgeOrder qx' qy' k = q)
    (g g' : Nat → R) (u v : ℝ)
    (hg : ∀ s < splineDim q n r, u • g (edgeY (splineDim qy n r) i s * splineDim qx n r + edgeX (splineDim qx n r) i s) +
      v • g' (edgeY (splineDim qy' n r) k (splineDim q n r - 1 - s) * splineDim qx' n r + edgeX (splineDim qx' n r) k (splineDim q n r - 1 - s)) = 0) :
    ∀ s < splineDim q (2 * n) r,
      u • refine2 qx qy n r g (edgeY (splineDim qy (2 * n) r) i s * splineDim qx (2 * n) r + edgeX (splineDim qx (2 * n) r) i s) +
      v • refine2 qx' qy' n r g' (edgeY (splineDim qy' (2 * n) r) k (splineDim q (2 * n) r - 1 - s) * splineDim qx' (2 * n) r +
        edgeX (splineDim qx' (2 * n) r) k (splineDim q (2 * n) r - 1 - s)) = 0 := by
  intro s hs
  have hq : 1 ≤ q := by rw [← h1]; unfold edgeOrder; split_ifs <;> assumption
  have hrq : r ≤ q := by rw [← h1]; unfold edgeOrder; split_ifs <;> assumption
  rw [refine2_edge qx qy n r i s hqx hqy hr hrx hry hn hi (by rw [h1]; exact hs),
    refine2_edge qx' qy' n r k _ hqx' hqy' hr hrx' hry' hn hk (by rw [h2]; omega), h1, h2]
  rw [← sum_range_reflect (fun w => refineCoef q n r w (splineDim q (2 * n) r - 1 - s) • _), smul_sum, smul_sum, ← sum_add_distrib]
  refine sum_eq_zero fun w hw => ?_
  have hw := mem_range.1 hw
  rw [← refineCoef_reverse q n r w s hq hr hrq hn hw hs, smul_comm u, smul_comm v, ← smul_add, hg w hw, smul_zero]

/-- Coefficients after `k` refinements of the level `M`. -/
noncomputable def refineK (qx qy r M : Nat) (g : Nat → R) : Nat → Nat → R
  | 0 => g
  | k + 1 => refine2 qx qy (2 ^ (M + k)) r (refineK qx qy r M g k)

theorem patchValue_refineK (qx qy r M : Nat) (hqx : 1 ≤ qx) (hqy : 1 ≤ qy) (hr : 1 ≤ r) (hrx : r ≤ qx) (hry : r ≤ qy) (g : Nat → R) (x : ℝ × ℝ) :
    ∀ (k X Y : Nat), X < 2 ^ (M + k) → Y < 2 ^ (M + k) →
    patchValue qx qy (2 ^ M) r (X / 2 ^ k) (Y / 2 ^ k) g x = patchValue qx qy (2 ^ (M + k)) r X Y (refineK qx qy r M g k) x
  | 0, X, Y, _, _ => by simp [refineK]
  | k + 1, X, Y, hX, hY => by
    have e : 2 ^ (M + (k + 1)) = 2 * 2 ^ (M + k) := by rw [← Nat.add_assoc, pow_succ, Nat.mul_comm]
    rw [e] at hX hY ⊢
    rw [refineK, ← patchValue_refine qx qy _ r X Y hqx hqy hr hrx hry hX hY, ← patchValue_refineK qx qy r M hqx hqy hr hrx hry g x k (X / 2) (Y / 2) (by omega) (by omega),
      Nat.div_div_eq_div_mul, Nat.div_div_eq_div_mul, ← pow_succ']

theorem refineK_match (qx qy qx' qy' r M i k : Nat) (hqx : 1 ≤ qx) (hqy : 1 ≤ qy) (hqx' : 1 ≤ qx') (hqy' : 1 ≤ qy') (hr : 1 ≤ r) (hrx : r ≤ qx) (hry : r ≤ qy)
    (hrx' : r ≤ qx') (hry' : r ≤ qy') (hi : i < 4) (hk : k < 4) (q : Nat) (h1 : edgeOrder qx qy i = q) (h2 : edgeOrder qx' qy' k = q)
    (g g' : Nat → R) (u v : ℝ)
    (hg : ∀ s < splineDim q (2 ^ M) r, u • g (edgeY (splineDim qy (2 ^ M) r) i s * splineDim qx (2 ^ M) r + edgeX (splineDim qx (2 ^ M) r) i s) +
      v • g' (edgeY (splineDim qy' (2 ^ M) r) k (splineDim q (2 ^ M) r - 1 - s) * splineDim qx' (2 ^ M) r + edgeX (splineDim qx' (2 ^ M) r) k (splineDim q (2 ^ M) r - 1 - s)) = 0) :
    ∀ (l s : Nat), s < splineDim q (2 ^ (M + l)) r →
      u • refineK qx qy r M g l (edgeY (splineDim qy (2 ^ (M + l)) r) i s * splineDim qx (2 ^ (M + l)) r + edgeX (splineDim qx (2 ^ (M + l)) r) i s) +
      v • refineK qx' qy' r M g' l (edgeY (splineDim qy' (2 ^ (M + l)) r) k (splineDim q (2 ^ (M + l)) r - 1 - s) * splineDim qx' (2 ^ (M + l)) r +
        edgeX (splineDim qx' (2 ^ (M + l)) r) k (splineDim q (2 ^ (M + l)) r - 1 - s)) = 0
  | 0, s, hs => hg s hs
  | l + 1, s, hs => by
    have e : 2 ^ (M + (l + 1)) = 2 * 2 ^ (M + l) := by rw [← Nat.add_assoc, pow_succ, Nat.mul_comm]
    rw [e] at hs ⊢
    rw [refineK, refineK]
    exact refine2_match qx qy qx' qy' _ r i k hqx hqy hqx' hqy' hr hrx hry hrx' hry' (by positivity) hi hk q h1 h2 _ _ u v
      (refineK_match qx qy qx' qy' r M i k hqx hqy hqx' hqy' hr hrx hry hrx' hry' hi hk q h1 h2 g g' u v hg l) s hs

end Bembel.Refine
