import Verif.Lemmas.ProjectorAsm
import Verif.Spec.Glue
/-!
# Traces of B-splines: coefficients at the ends of an element
-/

open Finset

namespace Bembel.Projector
open Spec Spl Props

/-- Polar form at the left end of the span, at most as many arguments as equal knots. -/
theorem polar_left (t : Nat → ℝ) (l : Nat) (hl : t l < t (l + 1)) : ∀ (k i : Nat), (∀ u, u < k → t (l - u) = t l) → k ≤ l →
    polar t l (List.replicate k (t l)) i = if i + k = l then 1 else 0
  | 0, i, _, _ => by simp [polar]
  | k + 1, i, hk, hkl => by
    rw [List.replicate_succ, polar, List.length_replicate, polar_left t l hl k i (fun u hu => hk u (by omega)) (by omega),
      polar_left t l hl k (i + 1) (fun u hu => hk u (by omega)) (by omega)]
    have h0 := hk k (by omega)
    by_cases h1 : i + k = l
    · rw [if_pos h1, if_neg (by omega), if_neg (by omega), show t i = t l by rw [← h0]; congr 1; omega]; simp
    · rw [if_neg h1]
      by_cases h2 : i + 1 + k = l
      · rw [if_pos h2, if_pos (by omega), show i + k + 2 = l + 1 by omega, show t (i + 1) = t l by rw [← h0]; congr 1; omega,
          div_self (by linarith)]; simp
      · rw [if_neg h2, if_neg (by omega)]; simp

/-- Polar form at the right end of the span. -/
theorem polar_right (t : Nat → ℝ) (l : Nat) (hl : t l < t (l + 1)) : ∀ (k i : Nat), (∀ u, u < k → t (l + 1 + u) = t (l + 1)) →
    polar t l (List.replicate k (t (l + 1))) i = if i = l then 1 else 0
  | 0, i, _ => by simp [polar]
  | k + 1, i, hk => by
    rw [List.replicate_succ, polar, List.length_replicate, polar_right t l hl k i (fun u hu => hk u (by omega)),
      polar_right t l hl k (i + 1) (fun u hu => hk u (by omega))]
    have h0 := hk k (by omega)
    by_cases h1 : i = l
    · subst h1
      rw [if_pos rfl, if_neg (by omega), show i + k + 1 = i + 1 + k by omega, h0, div_self (by linarith)]; simp
    · rw [if_neg h1]
      by_cases h2 : i + 1 = l
      · rw [if_pos h2, show i + k + 2 = l + 1 + k by omega, h0]; simp
      · rw [if_neg h2]; simp

/-- The polar forms of neighbouring spans agree at the knot between them if it is not repeated too often. -/
theorem polar_continuous (t : Nat → ℝ) (l r : Nat) (hl : t l < t (l + 1)) (hr : t (l + r) < t (l + r + 1)) (hr1 : 1 ≤ r)
    (hz : ∀ u, u < r → t (l + 1 + u) = t (l + 1)) (k : Nat) : ∀ i, 
    polar t l (List.replicate (r + k) (t (l + 1))) i = polar t (l + r) (List.replicate (r + k) (t (l + 1))) i := by
  induction k with
  | zero =>
    intro i
    have e : t (l + 1) = t (l + r) := by rw [← hz (r - 1) (by omega)]; congr 1; omega
    rw [Nat.add_zero, polar_right t l hl r i hz, e, polar_left t (l + r) hr r i ?_ (by omega)]
    · exact if_congr (by omega) rfl rfl
    · intro u hu
      rw [← e, ← hz (r - 1 - u) (by omega)]; congr 1; omega
  | succ k ih =>
    intro i
    rw [← Nat.add_assoc, List.replicate_succ, polar, polar, ih, ih]

/-- Reversal of the parameter direction. -/
theorem polar_reverse (t : Nat → ℝ) (m l : Nat) (ht : ∀ i ≤ m, t (m - i) = 1 - t i) (hl : l + 1 ≤ m) : ∀ (us : List ℝ) (i : Nat),
    i + us.length + 1 ≤ m → polar t l us i = polar t (m - 1 - l) (us.map fun u => 1 - u) (m - 1 - i - us.length)
  | [], i, hi => by
    simp only [List.length_nil] at hi
    simp only [polar, List.map_nil, List.length_nil]
    exact if_congr (by omega) rfl rfl
  | u :: us, i, hi => by
    rw [List.length_cons] at hi
    rw [polar, List.map_cons, polar, polar_reverse t m l ht hl us i (by omega), polar_reverse t m l ht hl us (i + 1) (by omega),
      List.length_map, List.length_cons]
    rw [show m - 1 - i - (us.length + 1) + us.length + 1 = m - (i + 1) by omega, show m - 1 - i - (us.length + 1) + us.length + 2 = m - i by omega,
      show m - 1 - i - (us.length + 1) + 1 = m - 1 - i - us.length by omega,
      show m - 1 - (i + 1) - us.length = m - 1 - i - (us.length + 1) by omega]
    have e1 := ht i (by omega)
    have e2 := ht (i + 1) (by omega)
    have e3 := ht (i + us.length + 1) (by omega)
    have e4 := ht (i + us.length + 2) (by omega)
    rw [show m - (i + us.length + 1) = m - 1 - i - us.length by omega] at e3
    rw [show m - (i + us.length + 2) = m - 1 - i - (us.length + 1) by omega] at e4
    rw [e1, e2, e3, e4, add_comm]
    congr 1
    · congr 1
      rw [show (1 : ℝ) - u - (1 - t (i + us.length + 2)) = t (i + us.length + 2) - u by ring,
        show (1 : ℝ) - t (i + 1) - (1 - t (i + us.length + 2)) = t (i + us.length + 2) - t (i + 1) by ring]
    · congr 1
      rw [show (1 : ℝ) - t i - (1 - u) = u - t i by ring,
        show (1 : ℝ) - t i - (1 - t (i + us.length + 1)) = t (i + us.length + 1) - t i by ring]

theorem bezier_reverse (t : Nat → ℝ) (mono : Monotone t) (m l k i j : Nat) (ht : ∀ i ≤ m, t (m - i) = 1 - t i) (hl : l + 1 ≤ m) (hj : j ≤ k) (hi : i + k + 1 ≤ m)
    (hlt : t l < t (l + 1)) :
    bezier t l k i j = bezier t (m - 1 - l) k (m - 1 - i - k) (k - j) := by
  unfold bezier
  have hlen : (List.replicate (k - j) (t l) ++ List.replicate j (t (l + 1))).length = k := by
    rw [List.length_append, List.length_replicate, List.length_replicate]; omega
  have e1 := ht l (by omega)
  have e2 := ht (l + 1) (by omega)
  rw [show m - (l + 1) = m - 1 - l by omega] at e2
  rw [show m - l = m - 1 - l + 1 by omega] at e1
  rw [polar_reverse t m l ht hl _ i (by rw [hlen]; exact hi), hlen, List.map_append, List.map_replicate, List.map_replicate, ← e1, ← e2,
    show k - (k - j) = j by omega]
  exact polar_perm t mono _ (by linarith) List.perm_append_comm _

theorem tau_reverse (q n r i : Nat) (hq : 1 ≤ q) (hn : 0 < n) (hr : 1 ≤ r) (hi : i ≤ splineDim q n r + q - 1) :
    tau q n r (splineDim q n r + q - 1 - i) + tau q n r i = n := by
  unfold splineDim at *
  unfold tau
  generalize hN : (n - 1) * r = N at *
  by_cases h1 : i < q
  · rw [if_neg (by omega), if_neg (by omega), if_pos h1, Nat.add_zero]
  · by_cases h2 : i < q + N
    · rw [if_neg (by omega), if_pos (by omega), if_neg h1, if_pos h2]
      have h3 : i - q < r * (n - 1) := by rw [Nat.mul_comm, hN]; omega
      have := Nat.mul_sub_div (i - q) r (n - 1) h3
      rw [Nat.mul_comm r, hN, show N - (i - q + 1) = q + N + q - 1 - i - q by omega] at this
      rw [this]
      have : (i - q) / r < n - 1 := by rw [Nat.div_lt_iff_lt_mul (by omega), Nat.mul_comm]; exact h3
      omega
    · rw [if_pos (by omega), if_neg h1, if_neg h2]; omega

theorem knot_reverse (q n r : Nat) (hq : 1 ≤ q) (hn : 0 < n) (hr : 1 ≤ r) : ∀ i ≤ splineDim q n r + q - 1,
    (uniformKnot q n r (splineDim q n r + q - 1 - i) : ℝ) = 1 - uniformKnot q n r i := by
  intro i hi
  have h : (0 : ℝ) < n := by exact_mod_cast hn
  have e : ((tau q n r (splineDim q n r + q - 1 - i) : Nat) : ℝ) + tau q n r i = n := by exact_mod_cast tau_reverse q n r i hq hn hr hi
  rw [uniformKnot_tau _ _ _ _ hn, uniformKnot_tau _ _ _ _ hn]
  field_simp
  linarith

theorem span_knots (q n r X : Nat) (hq : 1 ≤ q) (hr : 1 ≤ r) (hX : X < n) :
    (uniformKnot q n r (q - 1 + r * X) : ℝ) < uniformKnot q n r (q - 1 + r * X + 1) := by
  obtain ⟨k1, k2⟩ := knot_span q n r X hq hr hX
  have hn : (0 : ℝ) < n := by exact_mod_cast (by omega : 0 < n)
  rw [k1, k2, div_lt_div_iff_of_pos_right hn]; linarith

/-- Coefficients on the mirrored element. -/
theorem coef_reverse (p q n r X d j : Nat) (hpq : q = p + 1 ∨ q = p) (hq : 1 ≤ q) (hr : 1 ≤ r) (hX : X < n) (hd : d < splineDim q n r) (hj : j ≤ p) :
    coef p q n r X d j = coef p q n r (n - 1 - X) (splineDim q n r - 1 - d) (p - j) := by
  have e : r * (n - 1 - X) = (n - 1) * r - r * X := by rw [Nat.mul_sub, Nat.mul_comm r (n - 1)]
  have hle : r * X ≤ (n - 1) * r := by rw [Nat.mul_comm]; exact Nat.mul_le_mul_right _ (by omega)
  have key : ∀ j ≤ q - 1, bezier (uniformKnot (K := ℝ) q n r) (q - 1 + r * X) (q - 1) d j =
      bezier (uniformKnot q n r) (q - 1 + r * (n - 1 - X)) (q - 1) (splineDim q n r - 1 - d) (q - 1 - j) := by
    intro j hj
    rw [bezier_reverse _ (uniformKnot_mono q n r (by omega) hr) (splineDim q n r + q - 1) (q - 1 + r * X) (q - 1) d j
      (knot_reverse q n r hq (by omega) hr) (by unfold splineDim; omega) hj (by omega) (span_knots q n r X hq hr hX)]
    congr 1
    · unfold splineDim; rw [e]; omega
    · omega
  unfold coef
  by_cases h : q = p + 1
  · rw [if_pos h, if_pos h, key j (by omega), show q - 1 - j = p - j by omega]
  · obtain rfl : q = p := by omega
    rw [if_neg h, if_neg h, show q - (q - j) = j by omega, add_comm]
    have h1 : (j : ℝ) / q * bezier (uniformKnot q n r) (q - 1 + r * X) (q - 1) d (j - 1) =
        (j : ℝ) / q * bezier (uniformKnot q n r) (q - 1 + r * (n - 1 - X)) (q - 1) (splineDim q n r - 1 - d) (q - j) := by
      rcases Nat.eq_zero_or_pos j with rfl | h'
      · simp
      · rw [key (j - 1) (by omega), show q - 1 - (j - 1) = q - j by omega]
    have h2 : ((q - j : Nat) : ℝ) / q * bezier (uniformKnot q n r) (q - 1 + r * X) (q - 1) d j =
        ((q - j : Nat) : ℝ) / q * bezier (uniformKnot q n r) (q - 1 + r * (n - 1 - X)) (q - 1) (splineDim q n r - 1 - d) (q - j - 1) := by
      rcases Nat.eq_or_lt_of_le hj with rfl | h'
      · simp
      · rw [key j (by omega), show q - 1 - j = q - j - 1 by omega]
    rw [h1, h2]

/-- Coefficients at the first and the last knot of the degree `p`. -/
theorem coef_ends (p q n r X d : Nat) (hpq : q = p + 1 ∨ q = p) (hq : 1 ≤ q) :
    coef p q n r X d 0 = bezier (uniformKnot q n r) (q - 1 + r * X) (q - 1) d 0 ∧
    coef p q n r X d p = bezier (uniformKnot q n r) (q - 1 + r * X) (q - 1) d (q - 1) := by
  unfold coef
  by_cases h : q = p + 1
  · rw [if_pos h, if_pos h, show q - 1 = p by omega]; exact ⟨rfl, rfl⟩
  · obtain rfl : q = p := by omega
    have : (q : ℝ) ≠ 0 := by positivity
    rw [if_neg h, if_neg h]
    simp [this]

/-- Only the first B-spline does not vanish at the start of the patch. -/
theorem coef_start (p q n r d : Nat) (hpq : q = p + 1 ∨ q = p) (hq : 1 ≤ q) (hr : 1 ≤ r) (hn : 0 < n) :
    coef p q n r 0 d 0 = if d = 0 then 1 else 0 := by
  rw [(coef_ends p q n r 0 d hpq hq).1]
  have hs := span_knots q n r 0 hq hr hn
  unfold bezier
  rw [Nat.sub_zero, List.replicate_zero, List.append_nil, Nat.mul_zero, Nat.add_zero] at *
  rw [polar_left _ _ hs]
  · exact if_congr (by omega) rfl rfl
  · intro u hu
    simp [uniformKnot, show q - 1 - u < q by omega, show q - 1 < q by omega]
  · exact le_rfl

/-- Only the last B-spline does not vanish at the end of the patch. -/
theorem coef_end (p q n r d : Nat) (hpq : q = p + 1 ∨ q = p) (hq : 1 ≤ q) (hr : 1 ≤ r) (hn : 0 < n) (hd : d < splineDim q n r) :
    coef p q n r (n - 1) d p = if d = splineDim q n r - 1 then 1 else 0 := by
  rw [coef_reverse p q n r (n - 1) d p hpq hq hr (by omega) hd le_rfl, show n - 1 - (n - 1) = 0 by omega, Nat.sub_self,
    coef_start _ _ _ _ _ hpq hq hr hn]
  exact if_congr (by omega) rfl rfl

/-- The B-splines are continuous across the knots between two elements. -/
theorem coef_continuous (p q n r X d : Nat) (hpq : q = p + 1 ∨ q = p) (hr : 1 ≤ r) (hrq : r ≤ q - 1) (hX : X + 1 < n) :
    coef p q n r X d p = coef p q n r (X + 1) d 0 := by
  have hq : 1 ≤ q := by omega
  rw [(coef_ends p q n r X d hpq hq).2, (coef_ends p q n r (X + 1) d hpq hq).1]
  unfold bezier
  rw [Nat.sub_self, Nat.sub_zero, List.replicate_zero, List.replicate_zero, List.nil_append, List.append_nil]
  have h1 := span_knots q n r X hq hr (by omega)
  have h2 := span_knots q n r (X + 1) hq hr hX
  have k1 := knot_span q n r X hq hr (by omega)
  have k2 := knot_span q n r (X + 1) hq hr hX
  have el : q - 1 + r * (X + 1) = q - 1 + r * X + r := by ring
  rw [el] at h2 k2 ⊢
  have e : (uniformKnot q n r (q - 1 + r * X + r) : ℝ) = uniformKnot q n r (q - 1 + r * X + 1) := by
    rw [k2.1, k1.2]; push_cast; rfl
  rw [e, show q - 1 = r + (q - 1 - r) by omega]
  rw [show r + (q - 1 - r) = q - 1 by omega]
  have := polar_continuous (uniformKnot q n r) (q - 1 + r * X) r h1 h2 hr ?_ (q - 1 - r) d
  · rwa [show r + (q - 1 - r) = q - 1 by omega] at this
  · intro u hu
    have m := uniformKnot_mono q n r (by omega) hr
    have a1 := m (show q - 1 + r * X + 1 ≤ q - 1 + r * X + 1 + u by omega)
    have a2 := m (show q - 1 + r * X + 1 + u ≤ q - 1 + r * X + r by omega)
    linarith

/-! ### values on the edges of an element -/

theorem bern_at_zero (P j : Nat) : bern P j (0 : ℝ) = if j = 0 then 1 else 0 := by
  unfold bern
  split_ifs with h
  · subst h; simp
  · simp [h]

theorem bern_at_one (P j : Nat) (hj : j ≤ P) : bern P j (1 : ℝ) = if j = P then 1 else 0 := by
  unfold bern
  split_ifs with h
  · subst h; simp
  · simp [show P - j ≠ 0 by omega]

theorem bern_reverse (P j : Nat) (hj : j ≤ P) (s : ℝ) : bern P j (1 - s) = bern P (P - j) s := by
  unfold bern
  rw [Nat.choose_symm hj, show P - (P - j) = j by omega]
  ring

variable {R : Type} [AddCommGroup R] [Module ℝ R]

/-- Value of a function with coefficients `g` on element `(X, Y)`. -/
noncomputable def elementValue (P qx qy n r X Y : Nat) (g : Nat → R) (s : ℝ × ℝ) : R :=
  ∑ i ∈ range ((P + 1) * (P + 1)), ∑ c ∈ range (splineDim qx n r * splineDim qy n r),
    (cut (coef2 P qx qy n r X Y (c % splineDim qx n r) (c / splineDim qx n r) i) * shape P i s) • g c

/-- Value of a function of one variable with coefficients `g` on element `A`. -/
noncomputable def lineValue (P q n r A : Nat) (g : Nat → R) (s : ℝ) : R :=
  ∑ j ∈ range (P + 1), ∑ d ∈ range (splineDim q n r), (cut (coef P q n r A d j) * bern P j s) • g d

theorem elementValue_pairs (P qx qy n r X Y : Nat) (hqx : 1 ≤ qx) (g : Nat → R) (s : ℝ × ℝ) :
    elementValue P qx qy n r X Y g s = ∑ jy ∈ range (P + 1), ∑ jx ∈ range (P + 1), ∑ y ∈ range (splineDim qy n r), ∑ x ∈ range (splineDim qx n r),
      (cut (coef P qx n r X x jx * coef P qy n r Y y jy) * (bern P jx s.1 * bern P jy s.2)) • g (y * splineDim qx n r + x) := by
  unfold elementValue
  rw [H2.sum_range_mul]
  refine sum_congr rfl fun jy _ => sum_congr rfl fun jx hjx => ?_
  rw [Nat.mul_comm (splineDim qx n r), H2.sum_range_mul]
  refine sum_congr rfl fun y _ => sum_congr rfl fun x hx => ?_
  have hx := mem_range.1 hx
  have hjx := mem_range.1 hjx
  rw [coef2, shape, (divmod_pair hjx).1, (divmod_pair hjx).2, (divmod_pair hx).1, (divmod_pair hx).2]

theorem cut_delta (v : ℝ) (c : Prop) [Decidable c] : cut (v * if c then 1 else 0) = if c then cut v else 0 := by
  split_ifs
  · rw [mul_one]
  · rw [mul_zero]; simp [cut]

/-- On a horizontal line where only one row of shape functions does not vanish. -/
theorem slice_x (P qx qy n r X Y j0 : Nat) (hqx : 1 ≤ qx) (hj0 : j0 ≤ P) (g : Nat → R) (u v : ℝ) (hv : ∀ j ≤ P, bern P j v = if j = j0 then 1 else 0) :
    elementValue P qx qy n r X Y g (u, v) = ∑ jx ∈ range (P + 1), ∑ y ∈ range (splineDim qy n r), ∑ x ∈ range (splineDim qx n r),
      (cut (coef P qx n r X x jx * coef P qy n r Y y j0) * bern P jx u) • g (y * splineDim qx n r + x) := by
  rw [elementValue_pairs _ _ _ _ _ _ _ hqx, sum_eq_single j0]
  · simp only [hv j0 hj0, if_true, mul_one]
  · intro j hj hne
    refine sum_eq_zero fun jx _ => sum_eq_zero fun y _ => sum_eq_zero fun x _ => ?_
    simp only [hv j (by have := mem_range.1 hj; omega), if_neg hne, mul_zero, zero_smul]
  · intro h; exact absurd (mem_range.2 (by omega)) h

theorem slice_y (P qx qy n r X Y j0 : Nat) (hqx : 1 ≤ qx) (hj0 : j0 ≤ P) (g : Nat → R) (u v : ℝ) (hu : ∀ j ≤ P, bern P j u = if j = j0 then 1 else 0) :
    elementValue P qx qy n r X Y g (u, v) = ∑ jy ∈ range (P + 1), ∑ y ∈ range (splineDim qy n r), ∑ x ∈ range (splineDim qx n r),
      (cut (coef P qx n r X x j0 * coef P qy n r Y y jy) * bern P jy v) • g (y * splineDim qx n r + x) := by
  rw [elementValue_pairs _ _ _ _ _ _ _ hqx]
  refine sum_congr rfl fun jy _ => ?_
  rw [sum_eq_single j0]
  · simp only [hu j0 hj0, if_true, one_mul]
  · intro j hj hne
    refine sum_eq_zero fun y _ => sum_eq_zero fun x _ => ?_
    simp only [hu j (by have := mem_range.1 hj; omega), if_neg hne, mul_zero, zero_mul, zero_smul]
  · intro h; exact absurd (mem_range.2 (by omega)) h

/-- The same at the boundary of the patch. -/
theorem edge_x (P qx qy n r X Y j0 d0 : Nat) (hqx : 1 ≤ qx) (hj0 : j0 ≤ P) (hd0 : d0 < splineDim qy n r) (g : Nat → R) (u v : ℝ)
    (hv : ∀ j ≤ P, bern P j v = if j = j0 then 1 else 0) (hc : ∀ d < splineDim qy n r, coef P qy n r Y d j0 = if d = d0 then 1 else 0) :
    elementValue P qx qy n r X Y g (u, v) = lineValue P qx n r X (fun d => g (d0 * splineDim qx n r + d)) u := by
  rw [slice_x P qx qy n r X Y j0 hqx hj0 g u v hv]
  unfold lineValue
  refine sum_congr rfl fun jx _ => ?_
  rw [sum_eq_single d0]
  · refine sum_congr rfl fun x _ => ?_
    rw [hc d0 hd0, if_pos rfl, mul_one]
  · intro y hy hne
    refine sum_eq_zero fun x _ => ?_
    rw [hc y (mem_range.1 hy), cut_delta, if_neg hne, zero_mul, zero_smul]
  · intro h; exact absurd (mem_range.2 hd0) h

theorem edge_y (P qx qy n r X Y j0 d0 : Nat) (hqx : 1 ≤ qx) (hj0 : j0 ≤ P) (hd0 : d0 < splineDim qx n r) (g : Nat → R) (u v : ℝ)
    (hu : ∀ j ≤ P, bern P j u = if j = j0 then 1 else 0) (hc : ∀ d < splineDim qx n r, coef P qx n r X d j0 = if d = d0 then 1 else 0) :
    elementValue P qx qy n r X Y g (u, v) = lineValue P qy n r Y (fun d => g (d * splineDim qx n r + d0)) v := by
  rw [slice_y P qx qy n r X Y j0 hqx hj0 g u v hu]
  unfold lineValue
  refine sum_congr rfl fun jy _ => sum_congr rfl fun y _ => ?_
  rw [sum_eq_single d0]
  · rw [hc d0 hd0, if_pos rfl, one_mul]
  · intro x hx hne
    rw [hc x (mem_range.1 hx), mul_comm (ite _ _ _), cut_delta, if_neg hne, zero_mul, zero_smul]
  · intro h; exact absurd (mem_range.2 hd0) h

/-- Reversal of the direction along an edge. -/
theorem lineValue_reverse (P q n r A : Nat) (hpq : q = P + 1 ∨ q = P) (hq : 1 ≤ q) (hr : 1 ≤ r) (hA : A < n) (g : Nat → R) (s : ℝ) :
    lineValue P q n r A g (1 - s) = lineValue P q n r (n - 1 - A) (fun d => g (splineDim q n r - 1 - d)) s := by
  unfold lineValue
  rw [← sum_range_reflect]
  refine sum_congr rfl fun j hj => ?_
  have hj : j ≤ P := by have := mem_range.1 hj; omega
  rw [← sum_range_reflect]
  refine sum_congr rfl fun d hd => ?_
  have hd := mem_range.1 hd
  rw [coef_reverse P q n r A (splineDim q n r - 1 - d) _ hpq hq hr hA (by omega) (by omega), bern_reverse P _ (by omega)]
  rw [show splineDim q n r - 1 - (splineDim q n r - 1 - d) = d by omega, show P - (P + 1 - 1 - j) = j by omega]

open Glue Mesh in
/-- Values along a patch edge depend only on the coefficients of the dofs on this edge. -/
theorem edgeValue_eq (P qx qy M r i : Nat) (a : Addr) (hqx : 1 ≤ qx) (hqy : 1 ≤ qy) (hx : qx = P + 1 ∨ qx = P) (hy : qy = P + 1 ∨ qy = P)
    (hr : 1 ≤ r) (hX : posX a.2 < 2 ^ M) (hY : posY a.2 < 2 ^ M) (ha : OnEdge M i a) (g : Nat → R) (s : ℝ) :
    elementValue P qx qy (2 ^ M) r (posX a.2) (posY a.2) g (edgePoint i s) =
      lineValue P (if i = 0 ∨ i = 2 then qx else qy) (2 ^ M) r (alongEdge M i a)
        (fun d => g (edgeY (splineDim qy (2 ^ M) r) i d * splineDim qx (2 ^ M) r + edgeX (splineDim qx (2 ^ M) r) i d)) s := by
  have hn : 0 < 2 ^ M := by positivity
  have hdx : 0 < splineDim qx (2 ^ M) r := by unfold splineDim; omega
  have hdy : 0 < splineDim qy (2 ^ M) r := by unfold splineDim; omega
  rcases ha with ⟨rfl, h⟩ | ⟨rfl, h⟩ | ⟨rfl, h⟩ | ⟨rfl, h⟩
  · have := edge_x P qx qy (2 ^ M) r (posX a.2) (posY a.2) 0 0 hqx (by omega) hdy g s 0 (fun j _ => bern_at_zero P j) (by
      intro d _; rw [h, coef_start P qy _ r d hy hqy hr hn])
    simpa [edgePoint, edgeX, edgeY, alongEdge] using this
  · have := edge_y P qx qy (2 ^ M) r (posX a.2) (posY a.2) P (splineDim qx (2 ^ M) r - 1) hqx le_rfl (by omega) g 1 s (fun j hj => bern_at_one P j hj) (by
      intro d hd; rw [show posX a.2 = 2 ^ M - 1 by omega, coef_end P qx _ r d hx hqx hr hn hd])
    simpa [edgePoint, edgeX, edgeY, alongEdge] using this
  · have := edge_x P qx qy (2 ^ M) r (posX a.2) (posY a.2) P (splineDim qy (2 ^ M) r - 1) hqx le_rfl (by omega) g (1 - s) 1 (fun j hj => bern_at_one P j hj) (by
      intro d hd; rw [show posY a.2 = 2 ^ M - 1 by omega, coef_end P qy _ r d hy hqy hr hn hd])
    rw [lineValue_reverse P qx _ r _ hx hqx hr hX] at this
    simpa [edgePoint, edgeX, edgeY, alongEdge] using this
  · have := edge_y P qx qy (2 ^ M) r (posX a.2) (posY a.2) 0 0 hqx (by omega) hdx g 0 (1 - s) (fun j _ => bern_at_zero P j) (by
      intro d _; rw [h, coef_start P qx _ r d hx hqx hr hn])
    rw [lineValue_reverse P qy _ r _ hy hqy hr hY] at this
    simpa [edgePoint, edgeX, edgeY, alongEdge] using this

/-- Neighbours in the first direction. -/
theorem neighbour_x (P qx qy n r X Y : Nat) (hx : qx = P + 1 ∨ qx = P) (hr : 1 ≤ r) (hrq : r ≤ qx - 1) (hX : X + 1 < n) (g : Nat → R) (v : ℝ) :
    elementValue P qx qy n r X Y g (1, v) = elementValue P qx qy n r (X + 1) Y g (0, v) := by
  rw [slice_y P qx qy n r X Y P (by omega) le_rfl g 1 v fun j hj => bern_at_one P j hj,
    slice_y P qx qy n r (X + 1) Y 0 (by omega) (by omega) g 0 v fun j _ => bern_at_zero P j]
  refine sum_congr rfl fun jy _ => sum_congr rfl fun y _ => sum_congr rfl fun x _ => ?_
  rw [coef_continuous P qx n r X x hx hr hrq hX]

/-- Neighbours in the second direction. -/
theorem neighbour_y (P qx qy n r X Y : Nat) (hqx : 1 ≤ qx) (hy : qy = P + 1 ∨ qy = P) (hr : 1 ≤ r) (hrq : r ≤ qy - 1) (hY : Y + 1 < n) (g : Nat → R) (u : ℝ) :
    elementValue P qx qy n r X Y g (u, 1) = elementValue P qx qy n r X (Y + 1) g (u, 0) := by
  rw [slice_x P qx qy n r X Y P hqx le_rfl g u 1 fun j hj => bern_at_one P j hj,
    slice_x P qx qy n r X (Y + 1) 0 hqx (by omega) g u 0 fun j _ => bern_at_zero P j]
  refine sum_congr rfl fun jy _ => sum_congr rfl fun y _ => sum_congr rfl fun x _ => ?_
  rw [coef_continuous P qy n r Y y hy hr hrq hY]

end Bembel.Projector
