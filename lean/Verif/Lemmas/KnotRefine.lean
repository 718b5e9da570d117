import Verif.Lemmas.Traces
/-!
# Refinement of knot vectors by polar forms
-/

open Finset

namespace Bembel.Refine
open Spec Spl Props Projector

/-- The `p` knots after number `j`. -/
noncomputable def knots (t : Nat → ℝ) (j p : Nat) : List ℝ := (List.range p).map fun m => t (j + 1 + m)

theorem knots_length (t : Nat → ℝ) (j p : Nat) : (knots t j p).length = p := by simp [knots]

theorem knots_append (t : Nat → ℝ) (j a b : Nat) : knots t j (a + b) = knots t j a ++ knots t (j + a) b := by
  unfold knots
  rw [List.range_add, List.map_append, List.map_map]
  congr 1
  refine List.map_congr_left fun m _ => ?_
  simp only [Function.comp]
  congr 1; omega

theorem knots_cons (t : Nat → ℝ) (j p : Nat) : knots t j (p + 1) = t (j + 1) :: knots t (j + 1) p := by
  rw [Nat.add_comm p 1, knots_append]; rfl

theorem knots_snoc (t : Nat → ℝ) (j p : Nat) : knots t j (p + 1) = knots t j p ++ [t (j + p + 1)] := by
  rw [knots_append]; rfl

theorem knots_congr (t u : Nat → ℝ) (j k p : Nat) (h : ∀ m < p, t (j + 1 + m) = u (k + 1 + m)) : knots t j p = knots u k p := by
  unfold knots
  exact List.map_congr_left fun m hm => h m (List.mem_range.1 hm)

/-- The polar forms of the B-splines at consecutive knots. -/
theorem polar_dual (t : Nat → ℝ) (ht : Monotone t) (l : Nat) (hl : t l < t (l + 1)) : ∀ (p j i : Nat), j ≤ l → l ≤ j + p →
    polar t l (knots t j p) i = if i = j then 1 else 0
  | 0, j, i, h1, h2 => by
    obtain rfl : j = l := by omega
    rfl
  | p + 1, j, i, h1, h2 => by
    have hpos : t (j + 1) < t (j + p + 2) ∨ j = l := by
      rcases Nat.eq_or_lt_of_le h1 with h | h
      · exact Or.inr h
      · exact Or.inl (lt_of_le_of_lt (ht (by omega)) (lt_of_lt_of_le hl (ht (by omega))))
    rcases Nat.eq_or_lt_of_le h1 with h | h
    · subst h
      rw [knots_snoc, polar_perm t ht j hl (List.perm_append_comm : (knots t j p ++ [t (j + p + 1)]).Perm ([t (j + p + 1)] ++ knots t j p)) i,
        List.singleton_append, polar, knots_length, polar_dual t ht j hl p j i h1 (by omega), polar_dual t ht j hl p j (i + 1) h1 (by omega)]
      by_cases hi : i = j
      · subst hi
        have : t i < t (i + p + 1) := lt_of_lt_of_le hl (ht (by omega))
        rw [if_pos rfl, if_neg (by omega), div_self (by linarith)]; simp
      · rw [if_neg hi]
        by_cases hi' : i + 1 = j
        · rw [show i + p + 2 = j + p + 1 by omega]; simp
        · rw [if_neg hi']; simp
    · have hp := hpos.resolve_right (by omega)
      rw [knots_cons, polar, knots_length, polar_dual t ht l hl p (j + 1) i (by omega) (by omega), polar_dual t ht l hl p (j + 1) (i + 1) (by omega) (by omega)]
      by_cases hi : i = j
      · subst hi
        rw [if_neg (by omega), if_pos rfl, if_pos rfl, div_self (by linarith)]; simp
      · rw [if_neg hi, if_neg (by omega : ¬ i + 1 = j + 1)]
        by_cases hi' : i = j + 1
        · rw [hi']; simp
        · rw [if_neg hi']; simp

/-- Neighbouring pieces have the same polar form at arguments which contain the knots between them. -/
theorem polar_agree (t : Nat → ℝ) (ht : Monotone t) (l r : Nat) (hl : t l < t (l + 1)) (hr : t (l + r) < t (l + r + 1)) : ∀ (vs : List ℝ) (i : Nat),
    polar t l (vs ++ knots t l r) i = polar t (l + r) (vs ++ knots t l r) i
  | [], i => by rw [List.nil_append, polar_dual t ht l hl r l i le_rfl (by omega), polar_dual t ht (l + r) hr r l i (by omega) le_rfl]
  | v :: vs, i => by
    rw [List.cons_append, polar, polar, polar_agree t ht l r hl hr vs i, polar_agree t ht l r hl hr vs (i + 1)]

/-- Symmetric and affine in every argument. -/
structure MultiAffine (g : List ℝ → ℝ) : Prop where
  perm : ∀ us vs : List ℝ, us.Perm vs → g us = g vs
  affine : ∀ (us : List ℝ) (a b u : ℝ), a ≠ b → g (u :: us) = (u - a) / (b - a) * g (b :: us) + (b - u) / (b - a) * g (a :: us)

theorem MultiAffine.cons {g : List ℝ → ℝ} (h : MultiAffine g) (u : ℝ) : MultiAffine fun us => g (u :: us) where
  perm _ _ e := h.perm _ _ (e.cons u)
  affine us a b v hab := by
    rw [h.perm _ _ (List.Perm.swap v u us), h.perm _ _ (List.Perm.swap b u us), h.perm _ _ (List.Perm.swap a u us)]
    exact h.affine (u :: us) a b v hab

theorem multiAffine_polar (t : Nat → ℝ) (ht : Monotone t) (l : Nat) (hl : t l < t (l + 1)) (i : Nat) : MultiAffine fun us => polar t l us i where
  perm _ _ e := polar_perm t ht l hl e i
  affine us a b u hab := by
    have h : b - a ≠ 0 := sub_ne_zero.2 hab.symm
    rw [polar, polar, polar]
    generalize polar t l us i = A
    generalize polar t l us (i + 1) = B
    have e1 : (u - t i) = (u - a) / (b - a) * (b - t i) + (b - u) / (b - a) * (a - t i) := by field_simp; ring
    have e2 : (t (i + us.length + 2) - u) = (u - a) / (b - a) * (t (i + us.length + 2) - b) + (b - u) / (b - a) * (t (i + us.length + 2) - a) := by
      field_simp; ring
    rw [e1, e2]; ring

/-- Every symmetric multi-affine function is reproduced from its values at consecutive knots. -/
theorem reproduce (t : Nat → ℝ) (ht : Monotone t) (l N : Nat) (hl : t l < t (l + 1)) (hN : l < N) : ∀ (us : List ℝ) (g : List ℝ → ℝ),
    MultiAffine g → us.length ≤ l → ∑ i ∈ range N, g (knots t i us.length) * polar t l us i = g us
  | [], g, _, _ => by
    rw [sum_eq_single l]
    · simp [polar, knots]
    · intro i _ h; simp [polar, h]
    · intro h; exact absurd (mem_range.2 hN) h
  | u :: us, g, hg, hus => by
    rw [List.length_cons] at hus ⊢
    have ih := reproduce t ht l N hl hN us _ (hg.cons u) (by omega)
    rw [← ih]
    set k := us.length with hk
    have step : ∀ i, g (knots t i (k + 1)) * polar t l (u :: us) i =
        g (knots t i (k + 1)) * ((u - t i) / (t (i + k + 1) - t i)) * polar t l us i +
        (fun i => g (knots t (i - 1) (k + 1)) * ((t (i + k + 1) - u) / (t (i + k + 1) - t i)) * polar t l us i) (i + 1) := by
      intro i
      rw [polar, ← hk]
      simp only [Nat.add_sub_cancel]
      rw [show i + 1 + k + 1 = i + k + 2 by omega]
      ring
    simp only [step]
    rw [sum_add_distrib]
    have shift : ∀ f : Nat → ℝ, f 0 = 0 → f N = 0 → ∑ i ∈ range N, f (i + 1) = ∑ i ∈ range N, f i := by
      intro f h0 h1
      have := sum_range_succ' f N
      rw [sum_range_succ, h0, h1, add_zero, add_zero] at this
      exact this.symm
    rw [shift (fun i => g (knots t (i - 1) (k + 1)) * ((t (i + k + 1) - u) / (t (i + k + 1) - t i)) * polar t l us i)
      (by rw [polar_support t l us 0 (Or.inr (by omega)), mul_zero])
      (by rw [polar_support t l us N (Or.inl hN), mul_zero]), ← sum_add_distrib]
    refine sum_congr rfl fun i _ => ?_
    rw [← add_mul]
    by_cases hs : l < i ∨ i + us.length < l
    · rw [polar_support t l us i hs, mul_zero, mul_zero]
    · congr 1
      have hlt : t i < t (i + k + 1) := lt_of_le_of_lt (ht (by omega)) (lt_of_lt_of_le hl (ht (by omega)))
      have e1 : g (knots t i (k + 1)) = g (t (i + k + 1) :: knots t i k) := by
        rw [knots_snoc]
        exact hg.perm _ _ List.perm_append_comm
      have e2 : knots t (i - 1) (k + 1) = t i :: knots t i k := by
        rw [knots_cons, show i - 1 + 1 = i by omega]
      rw [e1, e2, hg.affine (knots t i k) (t i) (t (i + k + 1)) u hlt.ne]
      ring

/-! ### uniform knots -/

/-- First element in the support of B-spline `j`. -/
def firstElement (q r j : Nat) : Nat := (j - (q - 1) + (r - 1)) / r

theorem firstElement_spec (q n r j : Nat) (hq : 1 ≤ q) (hr : 1 ≤ r) (hrq : r ≤ q) (hj : j < splineDim q n r) (hn : 0 < n) :
    firstElement q r j < n ∧ j ≤ q - 1 + r * firstElement q r j ∧ q - 1 + r * firstElement q r j ≤ j + (q - 1) := by
  unfold firstElement splineDim at *
  have h1 := Nat.div_add_mod (j - (q - 1) + (r - 1)) r
  have h2 := Nat.mod_lt (j - (q - 1) + (r - 1)) (show r > 0 by omega)
  refine ⟨?_, by omega, ?_⟩
  · rw [Nat.div_lt_iff_lt_mul (by omega)]
    have : n * r = (n - 1) * r + r := by
      obtain ⟨m, rfl⟩ : ∃ m, n = m + 1 := ⟨n - 1, by omega⟩
      rw [Nat.add_sub_cancel]; ring
    omega
  · rcases Nat.le_total j (q - 1) with h | h
    · rw [show j - (q - 1) + (r - 1) = r - 1 by omega, Nat.div_eq_of_lt (by omega)]; omega
    · omega

/-- Coefficient of B-spline `i` with `n` elements in the B-spline `j` with `2 n` elements. -/
noncomputable def refineCoef (q n r i j : Nat) : ℝ :=
  polar (uniformKnot q n r) (q - 1 + r * (firstElement q r j / 2)) (knots (uniformKnot q (2 * n) r) j (q - 1)) i

theorem knots_between (q n r X : Nat) (hq : 1 ≤ q) (hr : 1 ≤ r) (hX : X + 1 < n) (u : Nat) (hu : u < r) :
    (uniformKnot q n r (q - 1 + r * X + 1 + u) : ℝ) = (X + 1) / n := by
  have k1 := knot_span q n r X hq hr (by omega)
  have k2 := knot_span q n r (X + 1) hq hr hX
  have m := uniformKnot_mono q n r (by omega) hr
  have a1 := m (show q - 1 + r * X + 1 ≤ q - 1 + r * X + 1 + u by omega)
  have a2 := m (show q - 1 + r * X + 1 + u ≤ q - 1 + r * (X + 1) by rw [Nat.mul_succ]; omega)
  rw [k1.2] at a1
  rw [k2.1] at a2
  push_cast at a2
  exact le_antisymm a2 a1

theorem refine_step (q n r i j Y : Nat) (hq : 1 ≤ q) (hr : 1 ≤ r) (hY : Y + 1 < 2 * n) (h1 : j ≤ q - 1 + r * Y)
    (h2 : q - 1 + r * (Y + 1) ≤ j + (q - 1)) :
    polar (uniformKnot q n r) (q - 1 + r * (Y / 2)) (knots (uniformKnot q (2 * n) r) j (q - 1)) i =
    polar (uniformKnot q n r) (q - 1 + r * ((Y + 1) / 2)) (knots (uniformKnot q (2 * n) r) j (q - 1)) i := by
  by_cases h : Y / 2 = (Y + 1) / 2
  · rw [h]
  · obtain ⟨X, rfl⟩ : ∃ X, Y = 2 * X + 1 := ⟨Y / 2, by omega⟩
    rw [show (2 * X + 1) / 2 = X by omega, show (2 * X + 1 + 1) / 2 = X + 1 by omega]
    have e : q - 1 + r * (X + 1) = q - 1 + r * X + r := by ring
    have s1 := span_knots q n r X hq hr (by omega)
    have s2 := span_knots q n r (X + 1) hq hr (by omega)
    rw [e] at s2 ⊢
    have mono := uniformKnot_mono q n r (by omega) hr
    rw [Nat.mul_succ] at h2
    obtain ⟨a, ha⟩ : ∃ a, j + a = q - 1 + r * (2 * X + 1) := ⟨_, Nat.add_sub_cancel' h1⟩
    obtain ⟨b, hb⟩ : ∃ b, q - 1 = a + (r + b) := ⟨q - 1 - a - r, by omega⟩
    have ek : knots (uniformKnot (K := ℝ) q (2 * n) r) (j + a) r = knots (uniformKnot q n r) (q - 1 + r * X) r := by
      refine knots_congr _ _ _ _ _ fun m hm => ?_
      rw [ha, knots_between q (2 * n) r (2 * X + 1) hq hr (by omega) m hm, knots_between q n r X hq hr (by omega) m hm]
      have hn : (0 : ℝ) < n := by exact_mod_cast (by omega : 0 < n)
      push_cast
      field_simp
      ring
    have el : knots (uniformKnot (K := ℝ) q (2 * n) r) j (q - 1) = knots (uniformKnot q (2 * n) r) j a ++
        (knots (uniformKnot q n r) (q - 1 + r * X) r ++ knots (uniformKnot q (2 * n) r) (j + a + r) b) := by
      conv_lhs => rw [hb]
      rw [knots_append, knots_append, ek]
    have hp : (knots (uniformKnot (K := ℝ) q (2 * n) r) j (q - 1)).Perm ((knots (uniformKnot q (2 * n) r) j a ++
        knots (uniformKnot q (2 * n) r) (j + a + r) b) ++ knots (uniformKnot q n r) (q - 1 + r * X) r) := by
      rw [el, List.append_assoc]
      exact List.Perm.append_left _ List.perm_append_comm
    rw [polar_perm _ mono _ s1 hp, polar_perm _ mono _ s2 hp]
    exact polar_agree _ mono _ _ s1 s2 _ i

theorem refine_chain (q n r i j : Nat) (hq : 1 ≤ q) (hr : 1 ≤ r) : ∀ (d Y : Nat), Y + d < 2 * n → j ≤ q - 1 + r * Y →
    q - 1 + r * (Y + d) ≤ j + (q - 1) →
    polar (uniformKnot q n r) (q - 1 + r * (Y / 2)) (knots (uniformKnot q (2 * n) r) j (q - 1)) i =
    polar (uniformKnot q n r) (q - 1 + r * ((Y + d) / 2)) (knots (uniformKnot q (2 * n) r) j (q - 1)) i
  | 0, Y, _, _, _ => rfl
  | d + 1, Y, h0, h1, h2 => by
    have e : r * (Y + d) ≤ r * (Y + (d + 1)) := Nat.mul_le_mul_left _ (by omega)
    have e' : r * Y ≤ r * (Y + d) := Nat.mul_le_mul_left _ (by omega)
    rw [refine_chain q n r i j hq hr d Y (by omega) h1 (by omega)]
    exact refine_step q n r i j (Y + d) hq hr (by omega) (by omega) h2

/-- The coefficient may be computed from every element in the support. -/
theorem refineCoef_eq (q n r i j Y : Nat) (hq : 1 ≤ q) (hr : 1 ≤ r) (hrq : r ≤ q) (hY : Y < 2 * n) (h1 : j ≤ q - 1 + r * Y)
    (h2 : q - 1 + r * Y ≤ j + (q - 1)) :
    refineCoef q n r i j = polar (uniformKnot q n r) (q - 1 + r * (Y / 2)) (knots (uniformKnot q (2 * n) r) j (q - 1)) i := by
  have hj : j < splineDim q (2 * n) r := lt_of_le_of_lt h1 (span_lt q (2 * n) r Y hq hY)
  obtain ⟨f1, f2, f3⟩ := firstElement_spec q (2 * n) r j hq hr hrq hj (by omega)
  unfold refineCoef
  rcases Nat.le_total (firstElement q r j) Y with h | h
  · obtain ⟨d, rfl⟩ := Nat.exists_eq_add_of_le h
    exact refine_chain q n r i j hq hr d _ hY f2 h2
  · obtain ⟨d, e⟩ := Nat.exists_eq_add_of_le h
    rw [e] at f1 f3 ⊢
    exact (refine_chain q n r i j hq hr d _ f1 h1 f3).symm

/-- B-splines with `n` elements are combinations of those with `2 n` elements. -/
theorem uniformSpline_refine (q n r i : Nat) (hq : 1 ≤ q) (hr : 1 ≤ r) (hrq : r ≤ q) (x : ℝ) (h0 : 0 ≤ x) (h1 : x < 1) (hn : 0 < n) :
    uniformSpline q n r i x = ∑ j ∈ range (splineDim q (2 * n) r), refineCoef q n r i j * uniformSpline q (2 * n) r j x := by
  have hn' : (0 : ℝ) < n := by exact_mod_cast hn
  obtain ⟨Y, s, hY, s0, s1, rfl⟩ : ∃ (Y : Nat) (s : ℝ), Y < 2 * n ∧ 0 ≤ s ∧ s < 1 ∧ x = ((Y : ℝ) + s) / (2 * n : Nat) := by
    have hx : 0 ≤ x * (2 * n : Nat) := by positivity
    refine ⟨⌊x * (2 * n : Nat)⌋₊, x * (2 * n : Nat) - ⌊x * (2 * n : Nat)⌋₊, ?_, ?_, ?_, ?_⟩
    · rw [Nat.floor_lt hx]
      have : (0 : ℝ) < (2 * n : Nat) := by positivity
      nlinarith
    · linarith [Nat.floor_le hx]
    · linarith [Nat.lt_floor_add_one (x * ((2 * n : Nat) : ℝ))]
    · have : ((2 * n : Nat) : ℝ) ≠ 0 := by positivity
      field_simp
      ring
  have e : ((Y : ℝ) + s) / (2 * n : Nat) = (((Y / 2 : Nat) : ℝ) + (((Y % 2 : Nat) : ℝ) + s) / 2) / n := by
    have : (Y : ℝ) = 2 * ((Y / 2 : Nat) : ℝ) + ((Y % 2 : Nat) : ℝ) := by exact_mod_cast (Nat.div_add_mod Y 2).symm
    rw [this]
    push_cast
    field_simp
    ring
  have hm : ((Y % 2 : Nat) : ℝ) ≤ 1 := by exact_mod_cast (by omega : Y % 2 ≤ 1)
  have hX : Y / 2 < n := by omega
  have c1 := bspline_eq_polar _ _ _ _ (inSpan_element q (2 * n) r Y hq hr hY s s0 s1)
  have c2 := bspline_eq_polar _ _ _ _ (inSpan_element q n r (Y / 2) hq hr hX ((((Y % 2 : Nat) : ℝ) + s) / 2) (by positivity) (by linarith))
  rw [← e] at c2
  unfold uniformSpline
  rw [c2]
  simp only [c1]
  have l1 := span_knots q n r (Y / 2) hq hr hX
  have l2 := span_knots q (2 * n) r Y hq hr hY
  have m1 := uniformKnot_mono q n r hn hr
  have m2 := uniformKnot_mono q (2 * n) r (by omega) hr
  have := reproduce (uniformKnot q (2 * n) r) m2 (q - 1 + r * Y) (splineDim q (2 * n) r) l2 (span_lt q (2 * n) r Y hq hY)
    (List.replicate (q - 1) (((Y : ℝ) + s) / (2 * n : Nat))) _ (multiAffine_polar _ m1 _ l1 i) (by rw [List.length_replicate]; omega)
  rw [List.length_replicate] at this
  rw [← this]
  refine sum_congr rfl fun j hj => ?_
  by_cases hs : q - 1 + r * Y < j ∨ j + (q - 1) < q - 1 + r * Y
  · rw [polar_support _ _ _ j (by rw [List.length_replicate]; exact hs), mul_zero, mul_zero]
  · rw [refineCoef_eq q n r i j Y hq hr hrq hY (by omega) (by omega)]

/-- At the start of the patch the coefficient is kept. -/
theorem refineCoef_first (q n r i : Nat) (hq : 1 ≤ q) (hr : 1 ≤ r) (hrq : r ≤ q) (hn : 0 < n) :
    refineCoef q n r i 0 = if i = 0 then 1 else 0 := by
  rw [refineCoef_eq q n r i 0 0 hq hr hrq (by omega) (by omega) (by omega)]
  have s1 := span_knots q n r 0 hq hr hn
  have e : knots (uniformKnot (K := ℝ) q (2 * n) r) 0 (q - 1) = knots (uniformKnot q n r) 0 (q - 1) := by
    refine knots_congr _ _ _ _ _ fun m hm => ?_
    simp [uniformKnot, show 0 + 1 + m < q by omega]
  rw [e, Nat.zero_div]
  rw [polar_dual _ (uniformKnot_mono q n r hn hr) _ s1 _ _ _ (by omega) (by omega)]

/-- Reversal of the parameter direction. -/
theorem refineCoef_reverse (q n r i j : Nat) (hq : 1 ≤ q) (hr : 1 ≤ r) (hrq : r ≤ q) (hn : 0 < n) (hi : i < splineDim q n r)
    (hj : j < splineDim q (2 * n) r) :
    refineCoef q n r i j = refineCoef q n r (splineDim q n r - 1 - i) (splineDim q (2 * n) r - 1 - j) := by
  obtain ⟨f1, f2, f3⟩ := firstElement_spec q (2 * n) r j hq hr hrq hj (by omega)
  generalize firstElement q r j = Y at f1 f2 f3
  have hYr : r * (2 * n - 1 - Y) = (2 * n - 1) * r - r * Y := by rw [Nat.mul_sub, Nat.mul_comm r (2 * n - 1)]
  have hYle : r * Y ≤ (2 * n - 1) * r := by rw [Nat.mul_comm]; exact Nat.mul_le_mul_right _ (by omega)
  have hXr : r * (n - 1 - Y / 2) = (n - 1) * r - r * (Y / 2) := by rw [Nat.mul_sub, Nat.mul_comm r (n - 1)]
  have hXle : r * (Y / 2) ≤ (n - 1) * r := by rw [Nat.mul_comm]; exact Nat.mul_le_mul_right _ (by omega)
  rw [refineCoef_eq q n r i j Y hq hr hrq f1 f2 f3,
    refineCoef_eq q n r _ _ (2 * n - 1 - Y) hq hr hrq (by omega) (by unfold splineDim at *; omega) (by unfold splineDim at *; omega)]
  rw [show (2 * n - 1 - Y) / 2 = n - 1 - Y / 2 by omega]
  rw [polar_reverse _ (splineDim q n r + q - 1) _ (knot_reverse q n r hq hn hr) (by unfold splineDim; omega) _ i
    (by rw [knots_length]; omega), knots_length]
  rw [show splineDim q n r + q - 1 - 1 - i - (q - 1) = splineDim q n r - 1 - i by omega,
    show splineDim q n r + q - 1 - 1 - (q - 1 + r * (Y / 2)) = q - 1 + r * (n - 1 - Y / 2) by unfold splineDim; omega]
  refine polar_perm _ (uniformKnot_mono q n r hn hr) _ (span_knots q n r _ hq hr (by omega)) ?_ _
  have hrev : (knots (uniformKnot (K := ℝ) q (2 * n) r) j (q - 1)).map (fun u => 1 - u) =
      (knots (uniformKnot q (2 * n) r) (splineDim q (2 * n) r - 1 - j) (q - 1)).reverse := by
    refine List.ext_getElem (by simp [knots]) fun m h1 h2 => ?_
    have hm : m < q - 1 := by simpa [knots] using h1
    simp only [knots, List.getElem_map, List.getElem_range, List.getElem_reverse, List.length_map, List.length_range]
    rw [← knot_reverse q (2 * n) r hq (by omega) hr (j + 1 + m) (by omega)]
    congr 1; omega
  rw [hrev]
  exact List.reverse_perm _

theorem refineCoef_last (q n r i : Nat) (hq : 1 ≤ q) (hr : 1 ≤ r) (hrq : r ≤ q) (hn : 0 < n) (hi : i < splineDim q n r) :
    refineCoef q n r i (splineDim q (2 * n) r - 1) = if i = splineDim q n r - 1 then 1 else 0 := by
  have hd : 0 < splineDim q (2 * n) r := by unfold splineDim; omega
  rw [refineCoef_reverse q n r i _ hq hr hrq hn hi (by omega), Nat.sub_self, refineCoef_first q n r _ hq hr hrq hn]
  exact if_congr (by omega) rfl rfl

end Bembel.Refine
