import Mathlib.Data.List.Induction
import Verif.Spec.Text
/-!
# Reading concatenated texts
-/

namespace Bembel.Text

theorem splitOnP_append (p : Char → Bool) (a b : Str) (c : Char) (hc : p c = true) :
    (a ++ c :: b).splitOnP p = a.splitOnP p ++ b.splitOnP p := by
  induction a with
  | nil => simp [List.splitOnP_nil, List.splitOnP_cons, hc]
  | cons x a ih =>
    rw [List.cons_append, List.splitOnP_cons, List.splitOnP_cons, ih]
    split
    · rfl
    · cases h : a.splitOnP p with
      | nil => exact absurd h (List.splitOnP_ne_nil p a)
      | cons y ys => rfl

theorem splitOnP_none (p : Char → Bool) (a : Str) (h : ∀ c ∈ a, p c = false) : a.splitOnP p = [a] := by
  induction a with
  | nil => rfl
  | cons x a ih =>
    rw [List.splitOnP_cons, if_neg (by simp [h x (by simp)]), ih fun c hc => h c (by simp [hc])]
    rfl

@[simp] theorem words_nil : words [] = [] := by simp [words]

theorem words_sep (a b : Str) (c : Char) (hc : c.isWhitespace = true) : words (a ++ c :: b) = words a ++ words b := by
  unfold words
  rw [splitOnP_append _ _ _ _ hc, List.filter_append]

theorem words_token {a : Str} (h : Token a) : words a = [a] := by
  unfold words
  rw [splitOnP_none _ _ fun c hc => (h.2 c hc).1]
  simp [h.1]

theorem words_space (c : Char) (b : Str) (hc : c.isWhitespace = true) : words (c :: b) = words b := by
  have := words_sep [] b c hc
  simpa using this

theorem words_blanks (n : Nat) (b : Str) : words (List.replicate n ' ' ++ b) = words b := by
  induction n with
  | zero => rfl
  | succ n ih => rw [List.replicate_succ, List.cons_append, words_space _ _ (by decide), ih]

theorem words_append_space (a : Str) (c : Char) (hc : c.isWhitespace = true) : words (a ++ [c]) = words a := by
  rw [words_sep a [] c hc, words_nil, List.append_nil]

/-- Pieces joined by separators. -/
theorem words_intercalate (c : Char) (hc : c.isWhitespace = true) (L : List Str) : words ([c].intercalate L) = L.flatMap words := by
  induction L with
  | nil => simp
  | cons a L ih =>
    cases L with
    | nil => simp
    | cons b L =>
      rw [List.intercalate_cons_cons, List.append_assoc, List.singleton_append, words_sep _ _ _ hc, ih]
      simp

/-- The elements of an XML text. -/
def render (els : List (Str × Str)) : Str := els.flatMap fun e => '<' :: (e.1 ++ '>' :: e.2)

theorem render_append (a b : List (Str × Str)) : render (a ++ b) = render a ++ render b := by simp [render]

theorem splitOn_render (els : List (Str × Str)) (h : ∀ e ∈ els, Plain e.1 ∧ Plain e.2) :
    (render els).splitOn '<' = [] :: els.map fun e => e.1 ++ '>' :: e.2 := by
  induction els using List.reverseRecOn with
  | nil => rfl
  | append_singleton els e ih =>
    obtain ⟨h1, h2⟩ := h e (by simp)
    rw [render_append]
    show ((render els) ++ List.flatMap _ [e]).splitOn '<' = _
    rw [List.flatMap_singleton, List.splitOn, splitOnP_append _ _ _ _ (by simp)]
    have := ih fun x hx => h x (by simp [hx])
    rw [List.splitOn] at this
    rw [this, splitOnP_none]
    · simp
    · intro c hc
      rcases List.mem_append.1 hc with hc | hc
      · simpa using (h1 c hc).1
      · rcases List.mem_cons.1 hc with rfl | hc
        · decide
        · simpa using (h2 c hc).1

theorem scan_render (els : List (Str × Str)) (h : ∀ e ∈ els, Plain e.1 ∧ Plain e.2) :
    scan (render els) = els.map fun e => (e.1, words e.2) := by
  unfold scan
  rw [splitOn_render els h, List.drop_one, List.tail_cons, List.map_map]
  refine List.map_congr_left fun e he => ?_
  have h1 := (h e he).1
  have a1 : ∀ (t : Str) (s : Str), Plain t → (t ++ '>' :: s).takeWhile (fun c => decide (c ≠ '>')) = t := by
    intro t s ht
    induction t with
    | nil => simp
    | cons x t ih =>
      have hx := (ht x (by simp)).2
      simp only [List.cons_append, List.takeWhile_cons, hx, ne_eq, not_false_eq_true, decide_true, if_true]
      rw [ih fun c hc => ht c (by simp [hc])]
  have a2 : ∀ (t : Str) (s : Str), Plain t → (t ++ '>' :: s).dropWhile (fun c => decide (c ≠ '>')) = '>' :: s := by
    intro t s ht
    induction t with
    | nil => simp
    | cons x t ih =>
      have hx := (ht x (by simp)).2
      simp only [List.cons_append, List.dropWhile_cons, hx, ne_eq, not_false_eq_true, decide_true, if_true]
      rw [ih fun c hc => ht c (by simp [hc])]
  simp only [Function.comp]
  rw [a1 _ _ h1, a2 _ _ h1]
  rfl

end Bembel.Text
