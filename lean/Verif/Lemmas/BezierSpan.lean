import Verif.Spec.Nurbs
import Verif.Model.BezierExtraction
import Verif.Props.Patch
import Verif.Lemmas.BSpline
import Verif.Lemmas.Unisolvent
import Verif.Lemmas.ProjectorSolve
/-!
# Knot spans of open knot vectors, interpolation points, collocation in Bezier form
-/

set_option linter.unusedSectionVars false

open Finset

namespace Bembel.Spl
open Bembel.Spec Bembel.Basis Bembel.Geo Bembel.Props

/-- One direction of a patch: the knots, the distinct knots `u`, and for every span `ix` of `u` the knot span `l ix`. -/
structure Dir (t : Nat → ℝ) (n p : Nat) (u : List ℝ) (l : Nat → Nat) : Prop where
  knots : OpenKnots t n p
  uniq : extractUniqueKnotVector ((List.range (n + p + 1)).map t) = some u
  good : GoodKnots u
  mem : ∀ i ≤ n + p, t i ∈ u
  span : ∀ ix, ix + 1 < u.length → p ≤ l ix ∧ l ix < n ∧ u[ix]? = some (t (l ix)) ∧ u[ix + 1]? = some (t (l ix + 1))

theorem exists_dir {t : Nat → ℝ} {n p : Nat} (h : OpenKnots t n p) : ∃ u l, Dir t n p u l := by
  have e : (List.range (n + p + 1)).map t = t 0 :: (List.range (n + p)).map fun i => t (i + 1) := by
    rw [List.range_succ_eq_map]; simp [Function.comp_def]
  have hs : (t 0 :: (List.range (n + p)).map fun i => t (i + 1)).Pairwise (· ≤ ·) := by
    rw [← e, List.pairwise_map]
    exact List.pairwise_lt_range.imp fun {a b} hab => h.mono (by omega)
  have hc : (t 0 :: (List.range (n + p)).map fun i => t (i + 1)).IsChain (fun a b => a = b ∨ a + genericTolerance ℝ < b) := by
    rw [← e, List.isChain_iff_getElem]
    intro i hi
    simp only [List.length_map, List.length_range] at hi
    simp only [List.getElem_map, List.getElem_range]
    unfold genericTolerance
    exact h.gap i (by omega)
  obtain ⟨u, hu, hd, -, hp⟩ := C07_unique_strict _ _ hs
  obtain ⟨u', hu', hm, hl⟩ := C07_unique_mem_partial _ _ hc
  obtain rfl : u = u' := by rw [hu, Option.some.injEq] at hu'; exact hu'
  rw [← e] at hm hl hu
  have hm' : ∀ a, a ∈ u ↔ ∃ i ≤ n + p, t i = a := by
    intro a
    rw [hm]
    simp only [List.mem_map, List.mem_range]
    exact ⟨fun ⟨i, h1, h2⟩ => ⟨i, by omega, h2⟩, fun ⟨i, h1, h2⟩ => ⟨i, by omega, h2⟩⟩
  have hlast : u.getLast? = some 1 := by
    rw [hl, List.getLast?_eq_getElem?]
    simp [h.final]
  have hgood : GoodKnots u := by
    refine ⟨?_, by rw [hd, h.first], hlast, hp⟩
    have h0 : (0 : ℝ) ∈ u := (hm' 0).2 ⟨0, by omega, h.first⟩
    have h1 : (1 : ℝ) ∈ u := (hm' 1).2 ⟨n, by omega, h.last⟩
    match u, h0, h1 with
    | [a], h0, h1 =>
      simp at h0 h1
      linarith
    | _ :: _ :: _, _, _ => simp
  have hspan : ∀ ix, ix + 1 < u.length → ∃ l, p ≤ l ∧ l < n ∧ u[ix]? = some (t l) ∧ u[ix + 1]? = some (t (l + 1)) := by
    intro ix hix
    obtain ⟨a, ha⟩ : ∃ a, u[ix]? = some a := ⟨_, List.getElem?_eq_getElem (by omega)⟩
    obtain ⟨b, hb⟩ : ∃ b, u[ix + 1]? = some b := ⟨_, List.getElem?_eq_getElem hix⟩
    have hab := hgood.lt (Nat.lt_succ_self ix) ha hb
    have htol := tol_pos (K := ℝ)
    have ha0 : 0 ≤ a := hgood.le (Nat.zero_le ix) hgood.zero ha
    have hb1 : b ≤ 1 := hgood.le (by omega) hb hgood.one
    obtain ⟨i0, hi0, hti⟩ := (hm' a).1 (List.mem_of_getElem? ha)
    obtain ⟨j0, hj0, htj⟩ := (hm' b).1 (List.mem_of_getElem? hb)
    classical
    let l := Nat.findGreatest (fun i => t i = a) (n + p)
    have hl1 : t l = a := Nat.findGreatest_spec (P := fun i => t i = a) hi0 hti
    have hl2 : ∀ i, l < i → i ≤ n + p → t i ≠ a := fun i h1 h2 => Nat.findGreatest_is_greatest (P := fun i => t i = a) h1 h2
    have hln : l < n := by
      by_contra hcon
      have := h.mono (show n ≤ l by omega)
      rw [h.last, hl1] at this
      linarith
    have hpl : p ≤ l := by
      by_contra hcon
      have := h.mono (show l ≤ p by omega)
      rw [h.clamped, hl1] at this
      exact hl2 p (by omega) (by omega) (by rw [h.clamped]; linarith)
    refine ⟨l, hpl, hln, by rw [ha, hl1], ?_⟩
    rw [hb]
    congr 1
    refine le_antisymm ?_ ?_
    · -- b ≤ t (l+1)
      have hgt : a < t (l + 1) := lt_of_le_of_ne (by rw [← hl1]; exact h.mono (by omega)) (Ne.symm (hl2 _ (by omega) (by omega)))
      obtain ⟨k, hk⟩ := List.getElem?_of_mem ((hm' (t (l + 1))).2 ⟨l + 1, by omega, rfl⟩)
      refine hgood.le (i := ix + 1) (j := k) ?_ hb hk
      by_contra hcon
      have := hgood.le (i := k) (j := ix) (by omega) hk ha
      linarith
    · rw [← htj]
      refine h.mono ?_
      by_contra hcon
      have := h.mono (show j0 ≤ l by omega)
      rw [htj, hl1] at this
      linarith
  choose! l hl' using hspan
  exact ⟨u, l, h, hu, hgood, fun i hi => (hm' _).2 ⟨i, hi, rfl⟩, hl'⟩

namespace Dir

variable {t : Nat → ℝ} {n p : Nat} {u : List ℝ} {l : Nat → Nat}

theorem lt (h : Dir t n p u l) {ix : Nat} (hix : ix + 1 < u.length) : t (l ix) < t (l ix + 1) := by
  obtain ⟨-, -, h3, h4⟩ := h.span ix hix
  have := h.good.lt (Nat.lt_succ_self ix) h3 h4
  have := tol_pos (K := ℝ)
  linarith

theorem last_span (h : Dir t n p u l) {ix : Nat} (hix : ix + 2 = u.length) : t (l ix + 1) = 1 := by
  obtain ⟨-, -, -, h4⟩ := h.span ix (by omega)
  have := h.good.one
  rw [show u.length - 2 + 1 = ix + 1 by omega, h4, Option.some.injEq] at this
  exact this

theorem range (h : Dir t n p u l) {ix : Nat} (hix : ix + 1 < u.length) : 0 ≤ t (l ix) ∧ t (l ix + 1) ≤ 1 := by
  obtain ⟨-, -, h3, h4⟩ := h.span ix hix
  exact ⟨h.good.le (Nat.zero_le ix) h.good.zero h3, h.good.le (by omega) h4 h.good.one⟩

theorem inSpan_iff (h : Dir t n p u l) {ix : Nat} (hix : ix + 1 < u.length) (x : ℝ) (h0 : t (l ix) ≤ x)
    (h1 : x < t (l ix + 1) ∨ (x = t (l ix + 1) ∧ ix + 2 = u.length)) (i : Nat) : inSpan t n i x ↔ i = l ix := by
  obtain ⟨hp, hn, -, -⟩ := h.span ix hix
  obtain ⟨r0, r1⟩ := h.range hix
  have hlt := h.lt hix
  have mono := h.knots.mono
  have hlast := h.knots.last
  constructor
  · rintro ⟨hi, hti, hc⟩
    rcases lt_trichotomy i (l ix) with hil | hil | hil
    · exfalso
      have := mono (show i + 1 ≤ l ix by omega)
      rcases hc with hc | ⟨hx, he, -⟩
      · linarith
      · linarith
    · exact hil
    · exfalso
      have a1 := mono (show l ix + 1 ≤ i by omega)
      have a2 := mono (show i + 1 ≤ n by omega)
      rcases h1 with h1 | ⟨h1, h2⟩
      · linarith
      · have := h.last_span h2
        rcases hc with hc | ⟨hx, he, hs⟩ <;> linarith
  · rintro rfl
    refine ⟨hn, h0, ?_⟩
    rcases h1 with h1 | ⟨h1, h2⟩
    · exact Or.inl h1
    · have := h.last_span h2
      exact Or.inr ⟨by rw [h1, this, hlast], by rw [this, hlast], hlt⟩

/-- The B-splines on a span in Bernstein form. -/
theorem bspline_eq (h : Dir t n p u l) {ix : Nat} (hix : ix + 1 < u.length) (x : ℝ) (h0 : t (l ix) ≤ x)
    (h1 : x < t (l ix + 1) ∨ (x = t (l ix + 1) ∧ ix + 2 = u.length)) (i : Nat) :
    bspline t n x p i = ∑ j ∈ Finset.range (p + 1), bern p j ((x - t (l ix)) / (t (l ix + 1) - t (l ix))) * bezier t (l ix) p i j := by
  have hlt := h.lt hix
  have hne : t (l ix + 1) - t (l ix) ≠ 0 := by linarith
  rw [bspline_eq_polar t n x (l ix) (h.inSpan_iff hix x h0 h1) p i, ← polar_bern t h.knots.mono (l ix) hlt]
  congr 2
  field_simp
  ring

end Dir

/-- Interpolation points. -/
theorem points_length (mask : List ℝ) : ∀ u : List ℝ, (makeInterpolationPoints mask u).length = (u.length - 1) * mask.length
  | [] => by simp [makeInterpolationPoints]
  | [_] => by simp [makeInterpolationPoints]
  | a :: b :: rest => by
    rw [makeInterpolationPoints, List.length_append, points_length mask (b :: rest)]
    simp; ring

theorem points_get (mask : List ℝ) : ∀ (u : List ℝ) (ix m : Nat) (a b c : ℝ), u[ix]? = some a → u[ix + 1]? = some b → mask[m]? = some c →
    (makeInterpolationPoints mask u)[ix * mask.length + m]? = some (a + c * (b - a))
  | [], ix, m, a, b, c, ha, hb, hc => by simp at ha
  | [_], ix, m, a, b, c, ha, hb, hc => by simp at hb
  | a' :: b' :: rest, 0, m, a, b, c, ha, hb, hc => by
    simp at ha hb
    subst ha; subst hb
    have hm : m < mask.length := (List.getElem?_eq_some_iff.1 hc).1
    rw [makeInterpolationPoints, List.getElem?_append_left (by simpa using hm), Nat.zero_mul, Nat.zero_add, List.getElem?_map, hc]
    rfl
  | a' :: b' :: rest, ix + 1, m, a, b, c, ha, hb, hc => by
    rw [makeInterpolationPoints, List.getElem?_append_right (by simp; nlinarith)]
    have := points_get mask (b' :: rest) ix m a b c (by simpa using ha) (by simpa using hb) hc
    rw [← this]
    congr 1
    simp; rw [Nat.succ_mul]; omega

end Bembel.Spl
