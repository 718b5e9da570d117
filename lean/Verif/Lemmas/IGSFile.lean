import Verif.Model.IGSFile
import Mathlib.Data.List.Basic
import Mathlib.Data.List.TakeWhile
import Mathlib.Tactic.IntervalCases
/-!
# Lemmas for IGES files: decimal numbers, padded fields, words of a line
-/

namespace Bembel
namespace Geo

/-- Digits are neither white space nor signs. -/
theorem digitChar_facts (d : Nat) (h : d < 10) : (digitChar d).isDigit = true ∧ (digitChar d).isWhitespace = false ∧ (digitChar d).toNat - 48 = d ∧
    digitChar d ≠ '-' ∧ digitChar d ≠ '+' ∧ digitChar d ≠ ' ' := by
  interval_cases d <;> decide

theorem decAux_facts : ∀ (f n : Nat), n < f → decAux f n ≠ [] ∧ (∀ c ∈ decAux f n, ∃ d < 10, c = digitChar d) ∧
    (decAux f n).foldl (fun a c => 10 * a + (c.toNat - 48)) 0 = n
  | 0, n, h => absurd h (by omega)
  | f + 1, n, h => by
    unfold decAux
    split_ifs with h1
    · refine ⟨by simp, by simp; exact ⟨n, h1, rfl⟩, ?_⟩
      simp [(digitChar_facts n h1).2.2.1]
    · obtain ⟨i1, i2, i3⟩ := decAux_facts f (n / 10) (by omega)
      refine ⟨by simp, ?_, ?_⟩
      · intro c hc
        rcases List.mem_append.1 hc with hc | hc
        · exact i2 c hc
        · exact ⟨n % 10, Nat.mod_lt _ (by norm_num), by simpa using hc⟩
      · rw [List.foldl_append, i3]
        simp only [List.foldl_cons, List.foldl_nil]
        rw [(digitChar_facts (n % 10) (Nat.mod_lt _ (by norm_num))).2.2.1]
        omega

theorem decAux_length : ∀ (f n k : Nat), n < 10 ^ k → 1 ≤ k → (decAux f n).length ≤ k
  | 0, n, k, h, hk => by simp [decAux]
  | f + 1, n, k, h, hk => by
    unfold decAux
    split_ifs with h1
    · simpa using hk
    · obtain ⟨k, rfl⟩ : ∃ m, k = m + 1 := ⟨k - 1, by omega⟩
      have : 1 ≤ k := by
        rcases k with _ | k
        · simp at h; omega
        · omega
      have := decAux_length f (n / 10) k (by rw [pow_succ] at h; omega) this
      simp only [List.length_append, List.length_singleton]
      omega

theorem dec_length (n k : Nat) (h : n < 10 ^ k) (hk : 1 ≤ k) : (dec n).length ≤ k := decAux_length _ n k h hk

theorem dec_ne (n : Nat) : dec n ≠ [] := (decAux_facts (n + 1) n (by omega)).1

theorem dec_blank (n : Nat) : ∀ c ∈ dec n, c.isWhitespace = false := by
  intro c hc
  obtain ⟨d, h, rfl⟩ := (decAux_facts (n + 1) n (by omega)).2.1 c hc
  exact (digitChar_facts d h).2.1

/-- Reading a decimal number. -/
theorem stoi_dec (n : Nat) (h : n < 2147483648) (r : List Char) (hr : ∀ c ∈ r.head?, c.isDigit = false) : stoiText (dec n ++ r) = some (n : Int) := by
  obtain ⟨h1, h2, h3⟩ := decAux_facts (n + 1) n (by omega)
  change dec n ≠ [] at h1
  change ∀ c ∈ dec n, _ at h2
  change (dec n).foldl _ 0 = n at h3
  have hd : ∀ c ∈ dec n, c.isDigit = true := by
    intro c hc
    obtain ⟨d, hd, rfl⟩ := h2 c hc
    exact (digitChar_facts d hd).1
  have hh : (dec n ++ r).head? ≠ some '-' ∧ (dec n ++ r).head? ≠ some '+' := by
    cases e : dec n with
    | nil => exact absurd e h1
    | cons c l =>
      obtain ⟨d, hd, hc⟩ := h2 c (by rw [e]; simp)
      rw [hc]
      have := digitChar_facts d hd
      simp [this]
  have ht : (dec n ++ r).takeWhile Char.isDigit = dec n := by
    rw [List.takeWhile_append_of_pos hd]
    cases r with
    | nil => simp
    | cons c r => simp [List.takeWhile_cons, hr c (by simp)]
  unfold stoiText
  simp only [if_neg hh.1, if_neg (show ¬ ((dec n ++ r).head? = some '-' ∨ (dec n ++ r).head? = some '+') by tauto)]
  rw [ht, h3, if_neg h1, if_pos (by omega), one_mul]

/-! ### words -/

theorem split_blanks (k : Nat) (r : List Char) : splitBlank [] (List.replicate k ' ' ++ r) = splitBlank [] r := by
  induction k with
  | zero => simp
  | succ k ih =>
    rw [List.replicate_succ, List.cons_append, splitBlank]
    simp only [show (' ').isWhitespace = true from by decide, if_true]
    exact ih

theorem split_word (w : List Char) (hw : ∀ c ∈ w, c.isWhitespace = false) : ∀ (acc r : List Char), splitBlank acc (w ++ r) = splitBlank (acc ++ w) r := by
  induction w with
  | nil => simp
  | cons c w ih =>
    intro acc r
    rw [List.cons_append, splitBlank, if_neg (by simp [hw c (by simp)]), ih (fun c hc => hw c (by simp [hc])), List.append_assoc]
    rfl

/-- A field with a blank in front starts a new word. -/
theorem split_field (n : Nat) (w : List Char) (hw : ∀ c ∈ w, c.isWhitespace = false) (hl : w.length < n) (acc r : List Char) :
    splitBlank acc (setwRight n w ++ r) = (if acc = [] then [] else [acc]) ++ splitBlank w r := by
  unfold setwRight
  obtain ⟨k, hk⟩ : ∃ k, n - w.length = k + 1 := ⟨n - w.length - 1, by omega⟩
  rw [hk, List.replicate_succ, List.cons_append, List.cons_append, splitBlank]
  simp only [show (' ').isWhitespace = true from by decide, if_true]
  rw [List.append_assoc, split_blanks, split_word w hw, List.nil_append]
  split_ifs <;> simp

/-- A blank field. -/
theorem split_empty (acc r : List Char) : splitBlank acc (setwRight 8 " ".toList ++ r) = (if acc = [] then [] else [acc]) ++ splitBlank [] r := by
  have e : setwRight 8 " ".toList = ' ' :: List.replicate 7 ' ' := by decide
  rw [e, List.cons_append, splitBlank]
  simp only [show (' ').isWhitespace = true from by decide, if_true, split_blanks]
  split_ifs <;> simp

/-- The end of a line of the directory section. -/
theorem split_end (m : Nat) (hm : m < 2147483648) : ∃ l, (splitBlank (dec 0) ('D' :: setwRight 7 (dec m))).mapM stoiText = some (0 :: l) := by
  have e : splitBlank (dec 0) ('D' :: setwRight 7 (dec m)) = splitBlank (dec 0 ++ ['D']) (setwRight 7 (dec m)) := by
    rw [splitBlank, if_neg (by decide)]
  rw [e]
  by_cases h : (dec m).length < 7
  · have := split_field 7 (dec m) (dec_blank m) h (dec 0 ++ ['D']) []
    rw [List.append_nil] at this
    rw [this, if_neg (by simp), splitBlank, if_neg (dec_ne m)]
    refine ⟨[(m : Int)], ?_⟩
    simp only [List.cons_append, List.nil_append, List.mapM_cons, List.mapM_nil]
    rw [stoi_dec 0 (by norm_num) ['D'] (by simp)]
    have := stoi_dec m hm [] (by simp)
    rw [List.append_nil] at this
    rw [this]
    rfl
  · unfold setwRight
    rw [show 7 - (dec m).length = 0 by omega, List.replicate_zero, List.nil_append]
    have := split_word (dec m) (dec_blank m) (dec 0 ++ ['D']) []
    rw [List.append_nil] at this
    rw [this, splitBlank, if_neg (by simp), List.append_assoc]
    refine ⟨[], ?_⟩
    simp only [List.mapM_cons, List.mapM_nil]
    rw [stoi_dec 0 (by norm_num) (['D'] ++ dec m) (by simp)]
    rfl

/-! ### columns -/

theorem setwLeft_length (n : Nat) (s : List Char) (h : s.length ≤ n) : (setwLeft n s).length = n := by
  simp [setwLeft]; omega

theorem setwRight_length (n : Nat) (s : List Char) (h : s.length ≤ n) : (setwRight n s).length = n := by
  simp [setwRight]; omega

theorem column72_at (l r : List Char) (c : Char) (h : l.length = 72) : column72 (l ++ c :: r) = some c := by
  unfold column72
  rw [if_neg (by simp; omega), List.getD_eq_getElem?_getD, List.getElem?_append_right (by omega), h]
  rfl

end Geo
end Bembel
