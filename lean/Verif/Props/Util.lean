import Verif.Model.Util
import Mathlib.Tactic.Linarith
import Mathlib.Tactic.Module
import Mathlib.Tactic.FieldSimp
/-!
# Property theorems C18, C19: enclosing balls, generic matrices
-/

set_option linter.unusedSectionVars false

namespace Bembel.Props

open Bembel.Util

/-! ## C18 -/

section C18
variable {E : Type} [NormedAddCommGroup E] [NormedSpace ℝ E]

/-- Specification: the closed ball as a set of points. -/
def Ball.points (b : Ball E) : Set E := {x | ‖x - b.mid‖ ≤ b.rad}

/-- C18: for all balls with non-negative radii the computation succeeds (no division by zero) and every point of
either ball is in the result. -/
theorem C18_contains (b1 b2 : Ball E) (h1 : 0 ≤ b1.rad) (h2 : 0 ≤ b2.rad) :
    ∃ b, computeEnclosingBall b1 b2 = some b ∧ Ball.points b1 ⊆ Ball.points b ∧
      Ball.points b2 ⊆ Ball.points b := by
  unfold computeEnclosingBall Ball.points
  set n := ‖b1.mid - b2.mid‖ with hn
  have hn0 : 0 ≤ n := norm_nonneg _
  by_cases c1 : n + b2.rad ≤ b1.rad
  · refine ⟨_, if_pos c1, fun x hx => hx, fun x hx => ?_⟩
    simp only [Set.mem_ofPred_eq] at hx ⊢
    calc ‖x - b1.mid‖ = ‖(x - b2.mid) - (b1.mid - b2.mid)‖ := by congr 1; abel
      _ ≤ ‖x - b2.mid‖ + n := norm_sub_le _ _
      _ ≤ b1.rad := by linarith
  · by_cases c2 : n + b1.rad ≤ b2.rad
    · refine ⟨_, by simp only [if_neg c1, if_pos c2], fun x hx => ?_, fun x hx => hx⟩
      simp only [Set.mem_ofPred_eq] at hx ⊢
      calc ‖x - b2.mid‖ = ‖(x - b1.mid) + (b1.mid - b2.mid)‖ := by congr 1; abel
        _ ≤ ‖x - b1.mid‖ + n := norm_add_le _ _
        _ ≤ b2.rad := by linarith
    · have hne : ¬ n = 0 := by
        intro h
        rw [h] at c1 c2
        rcases le_total b1.rad b2.rad with h | h <;> linarith
      have hpos : 0 < n := lt_of_le_of_ne hn0 (Ne.symm hne)
      refine ⟨_, by simp only [if_neg c1, if_neg c2, if_neg hne]; rfl, fun x hx => ?_, fun x hx => ?_⟩
      · simp only [Set.mem_ofPred_eq] at hx ⊢
        have e : x - (0.5 : ℝ) • (b1.mid + b2.mid + ((b1.rad - b2.rad) / n) • (b1.mid - b2.mid)) =
            (x - b1.mid) + ((0.5 : ℝ) * (1 - (b1.rad - b2.rad) / n)) • (b1.mid - b2.mid) := by
          module
        rw [e]
        have hc : 0 ≤ (0.5 : ℝ) * (1 - (b1.rad - b2.rad) / n) := by
          have : (b1.rad - b2.rad) / n ≤ 1 := by rw [div_le_one hpos]; linarith
          linarith
        calc _ ≤ ‖x - b1.mid‖ + ‖((0.5 : ℝ) * (1 - (b1.rad - b2.rad) / n)) • (b1.mid - b2.mid)‖ := norm_add_le _ _
          _ = ‖x - b1.mid‖ + (0.5 : ℝ) * (1 - (b1.rad - b2.rad) / n) * n := by
            rw [norm_smul, Real.norm_of_nonneg hc]
          _ = ‖x - b1.mid‖ + 0.5 * (n - (b1.rad - b2.rad)) := by field_simp
          _ ≤ _ := by linarith
      · simp only [Set.mem_ofPred_eq] at hx ⊢
        have e : x - (0.5 : ℝ) • (b1.mid + b2.mid + ((b1.rad - b2.rad) / n) • (b1.mid - b2.mid)) =
            (x - b2.mid) - ((0.5 : ℝ) * (1 + (b1.rad - b2.rad) / n)) • (b1.mid - b2.mid) := by
          module
        rw [e]
        have hc : 0 ≤ (0.5 : ℝ) * (1 + (b1.rad - b2.rad) / n) := by
          have : -1 ≤ (b1.rad - b2.rad) / n := by rw [le_div_iff₀ hpos]; linarith
          linarith
        calc _ ≤ ‖x - b2.mid‖ + ‖((0.5 : ℝ) * (1 + (b1.rad - b2.rad) / n)) • (b1.mid - b2.mid)‖ := norm_sub_le _ _
          _ = ‖x - b2.mid‖ + (0.5 : ℝ) * (1 + (b1.rad - b2.rad) / n) * n := by
            rw [norm_smul, Real.norm_of_nonneg hc]
          _ = ‖x - b2.mid‖ + 0.5 * (n + (b1.rad - b2.rad)) := by field_simp
          _ ≤ _ := by linarith

/-- C18: the radius is at least both radii and never exceeds `max r1 r2` or `(r1 + r2 + d)/2`, whichever is
larger; if no ball contains the other it is exactly `(r1 + r2 + d)/2`. -/
theorem C18_radius (b1 b2 b : Ball E) (h : computeEnclosingBall b1 b2 = some b) :
    b1.rad ≤ b.rad ∧ b2.rad ≤ b.rad ∧
      b.rad = max (max b1.rad b2.rad) ((b1.rad + b2.rad + ‖b1.mid - b2.mid‖) / 2) := by
  unfold computeEnclosingBall at h
  have hn0 : 0 ≤ ‖b1.mid - b2.mid‖ := norm_nonneg _
  generalize ‖b1.mid - b2.mid‖ = n at h hn0
  by_cases c1 : n + b2.rad ≤ b1.rad
  · rw [if_pos c1, Option.some.injEq] at h
    subst h
    refine ⟨le_rfl, by simp only []; linarith, ?_⟩
    simp only []
    rw [max_eq_left (by linarith : b2.rad ≤ b1.rad), max_eq_left (by linarith)]
  · rw [if_neg c1] at h
    by_cases c2 : n + b1.rad ≤ b2.rad
    · rw [if_pos c2, Option.some.injEq] at h
      subst h
      refine ⟨by simp only []; linarith, le_rfl, ?_⟩
      simp only []
      rw [max_eq_right (by linarith : b1.rad ≤ b2.rad), max_eq_left (by linarith)]
    · rw [if_neg c2] at h
      by_cases c3 : n = 0
      · rw [if_pos c3] at h; simp at h
      · rw [if_neg c3, Option.some.injEq] at h
        subst h
        push Not at c1 c2
        simp only []
        refine ⟨by linarith, by linarith, ?_⟩
        rw [max_eq_right (max_le (by linarith) (by linarith))]
        ring

/-- Non-vacuity: two concrete balls on the line, none containing the other. -/
example : ∃ b1 b2 : Ball ℝ, 0 ≤ b1.rad ∧ 0 ≤ b2.rad ∧ ¬ ‖b1.mid - b2.mid‖ + b2.rad ≤ b1.rad ∧
    ¬ ‖b1.mid - b2.mid‖ + b1.rad ≤ b2.rad :=
  ⟨⟨0, 1⟩, ⟨3, 1⟩, by norm_num, by norm_num, by norm_num, by norm_num⟩

end C18

/-! ## C19 -/

section C19
variable {T : Type} [Inhabited T]

/-- Invariant of the class: shape of the nested vectors. -/
def Shaped (m : GMatrix T) : Prop := m.data.length = m.cols ∧ ∀ c ∈ m.data, c.length = m.rows

theorem vresize_length {α : Type} (n : Nat) (fill : α) (v : List α) : (vresize n fill v).length = n := by
  simp [vresize]; omega

theorem vresize_getElem? {α : Type} (n : Nat) (fill : α) (v : List α) (i : Nat) (hi : i < n) :
    (vresize n fill v)[i]? = some (v.getD i fill) := by
  unfold vresize
  rcases Nat.lt_or_ge i v.length with h | h
  · rw [List.getElem?_append_left (by simp; omega), List.getElem?_take_of_lt hi,
      List.getElem?_eq_getElem h]
    simp [h]
  · rw [List.getElem?_append_right (by simp; omega), List.getElem?_replicate_of_lt (by simp; omega)]
    simp [h]

/-- C19: after `resize(r, c)` the matrix has `r` rows and `c` columns, all entries are addressable; entries
inside both shapes are kept and new entries are value-initialised. -/
theorem C19_resize (m : GMatrix T) (hm : Shaped m) (r c : Nat) :
    (m.resize r c).rows = r ∧ (m.resize r c).cols = c ∧ Shaped (m.resize r c) ∧
    ∀ i j, i < r → j < c → (m.resize r c).get i j =
      some (if i < m.rows ∧ j < m.cols then (m.get i j).getD default else default) := by
  refine ⟨rfl, rfl, ⟨by simp [GMatrix.resize, vresize_length], ?_⟩, ?_⟩
  · intro col hcol
    simp only [GMatrix.resize, List.mem_map] at hcol
    obtain ⟨v, _, rfl⟩ := hcol
    exact vresize_length _ _ _
  · intro i j hi hj
    unfold GMatrix.get GMatrix.resize
    simp only [List.getElem?_map, vresize_getElem? c _ m.data j hj, Option.map_some, Option.bind_eq_bind,
      Option.bind_some, vresize_getElem? r _ _ i hi]
    congr 1
    by_cases h : i < m.rows ∧ j < m.cols
    · rw [if_pos h]
      have hj' : j < m.data.length := by rw [hm.1]; exact h.2
      rw [List.getElem?_eq_getElem hj']
      simp [hj']
    · rw [if_neg h]
      by_cases hj' : j < m.data.length
      · have : m.data.getD j [] ∈ m.data := by
          rw [List.getD_eq_getElem?_getD, List.getElem?_eq_getElem hj']; exact List.getElem_mem _
        have hl := hm.2 _ this
        rw [hm.1] at hj'
        rw [List.getD_eq_getElem?_getD, List.getElem?_eq_none (by rw [hl]; omega)]
        rfl
      · rw [List.getD_eq_getElem?_getD (l := m.data), List.getElem?_eq_none (by omega)]
        simp

/-- C19: a write in range succeeds, changes exactly the addressed entry and keeps the shape. -/
theorem C19_write (m : GMatrix T) (hm : Shaped m) (r c : Nat) (v : T) (hr : r < m.rows) (hc : c < m.cols) :
    ∃ m', m.set r c v = some m' ∧ Shaped m' ∧ m'.rows = m.rows ∧ m'.cols = m.cols ∧
      ∀ i j, m'.get i j = if i = r ∧ j = c then some v else m.get i j := by
  have hc' : c < m.data.length := by rw [hm.1]; exact hc
  have hl : (m.data[c]).length = m.rows := hm.2 _ (List.getElem_mem _)
  refine ⟨⟨m.data.set c (m.data[c].set r v), m.cols, m.rows⟩, ?_, ⟨by simpa using hm.1, ?_⟩, rfl, rfl, ?_⟩
  · unfold GMatrix.set
    rw [List.getElem?_eq_getElem hc']
    simp only [Option.bind_eq_bind, Option.bind_some]
    rw [if_pos (by rw [hl]; exact hr)]
  · intro col hcol
    rcases List.mem_or_eq_of_mem_set hcol with h | h
    · exact hm.2 _ h
    · rw [h]; simpa using hl
  · intro i j
    unfold GMatrix.get
    simp only [Option.bind_eq_bind, List.getElem?_set]
    by_cases hj : c = j
    · subst hj
      rw [if_pos rfl, if_pos hc', Option.bind_some, List.getElem?_eq_getElem hc', Option.bind_some,
        List.getElem?_set]
      by_cases hi : r = i
      · subst hi
        rw [if_pos rfl, if_pos (by rw [hl]; exact hr), if_pos ⟨rfl, rfl⟩]
      · rw [if_neg hi, if_neg (fun h => hi h.1.symm)]
    · rw [if_neg hj, if_neg (fun h => hj h.2.symm)]

/-- Specification: the value of an entry after a history of operations: the last write since the entry was
last outside the shape, the default value if there is none, `none` if it is outside the shape. -/
def specEntry (i j : Nat) (cur : Option T) : GOp T → Option T
  | .resize r c => if i < r ∧ j < c then some (cur.getD default) else none
  | .set r c v => if i = r ∧ j = c then some v else cur

/-- C19: reading after any history of resizes and in-range writes returns the last value written. -/
theorem C19_history (ops : List (GOp T)) : ∀ (m m' : GMatrix T), Shaped m →
    ops.foldlM GMatrix.step m = some m' → Shaped m' ∧
      ∀ i j, m'.get i j = ops.foldl (specEntry i j) (m.get i j) := by
  induction ops with
  | nil => intro m m' hm h; simp only [List.foldlM_nil, Option.pure_def, Option.some.injEq] at h; subst h; exact ⟨hm, fun _ _ => rfl⟩
  | cons op ops ih =>
    intro m m' hm h
    rw [List.foldlM_cons] at h
    cases op with
    | resize r c =>
      simp only [GMatrix.step, Option.bind_eq_bind, Option.bind_some] at h
      obtain ⟨hr, hcl, hs, hg⟩ := C19_resize m hm r c
      obtain ⟨h1, h2⟩ := ih _ _ hs h
      refine ⟨h1, fun i j => ?_⟩
      rw [h2, List.foldl_cons]
      congr 1
      dsimp only [specEntry]
      have out : ∀ m : GMatrix T, Shaped m → ¬ (i < m.rows ∧ j < m.cols) → m.get i j = none := by
        intro m hm hnot
        unfold GMatrix.get
        by_cases hj : j < m.data.length
        · rw [List.getElem?_eq_getElem hj]
          simp only [Option.bind_eq_bind, Option.bind_some]
          rw [List.getElem?_eq_none]
          rw [hm.2 _ (List.getElem_mem _)]
          rw [hm.1] at hj
          omega
        · rw [List.getElem?_eq_none (by omega)]; rfl
      by_cases hij : i < r ∧ j < c
      · rw [hg i j hij.1 hij.2, if_pos hij]
        congr 1
        by_cases ho : i < m.rows ∧ j < m.cols
        · rw [if_pos ho]
        · rw [if_neg ho, out m hm ho]; rfl
      · rw [if_neg hij]
        exact out _ hs (by rw [hr, hcl]; exact hij)
    | set r c v =>
      by_cases hin : r < m.rows ∧ c < m.cols
      · obtain ⟨m1, hm1, hs, _, _, hg⟩ := C19_write m hm r c v hin.1 hin.2
        simp only [GMatrix.step, hm1, Option.bind_eq_bind, Option.bind_some] at h
        obtain ⟨h1, h2⟩ := ih _ _ hs h
        refine ⟨h1, fun i j => ?_⟩
        rw [h2, List.foldl_cons, hg]
        rfl
      · exfalso
        have : m.set r c v = none := by
          unfold GMatrix.set
          by_cases hj : c < m.data.length
          · rw [List.getElem?_eq_getElem hj]
            simp only [Option.bind_eq_bind, Option.bind_some]
            rw [if_neg]
            rw [hm.2 _ (List.getElem_mem _)]
            rw [hm.1] at hj
            omega
          · rw [List.getElem?_eq_none (by omega)]; rfl
        simp [GMatrix.step, this] at h

/-- Non-vacuity: a history with two resizes and writes that runs to completion. -/
example : Shaped (GMatrix.empty : GMatrix Nat) ∧
    ([GOp.resize 2 2, .set 1 0 7, .resize 3 1, .set 2 0 5].foldlM GMatrix.step
      (GMatrix.empty : GMatrix Nat)).isSome = true := by
  refine ⟨⟨rfl, by simp [GMatrix.empty]⟩, by decide⟩

end C19

end Bembel.Props
