import Verif.Spec.VTKExport
import Verif.Lemmas.Text
/-!
# The parts of the VTK files
-/

namespace Bembel.Vtk
open Mesh Text

theorem _root_.Bembel.Text.Plain.append {a b : Str} (ha : Plain a) (hb : Plain b) : Plain (a ++ b) := fun c hc =>
  (List.mem_append.1 hc).elim (ha c) (hb c)

theorem plain_flatMap {α : Type} {L : List α} {f : α → Str} (h : ∀ a ∈ L, Plain (f a)) : Plain (L.flatMap f) := by
  intro c hc
  obtain ⟨a, ha, hc⟩ := List.mem_flatMap.1 hc
  exact h a ha c hc

theorem plain_token {a : Str} (h : Token a) : Plain a := fun c hc => (h.2 c hc).2

theorem plain_intercalate {s : Str} (hs : Plain s) {L : List Str} (h : ∀ a ∈ L, Plain a) : Plain (s.intercalate L) := by
  induction L with
  | nil => intro c hc; simp at hc
  | cons a L ih =>
    cases L with
    | nil => simpa using h a (by simp)
    | cons b L =>
      rw [List.intercalate_cons_cons]
      exact ((h a (by simp)).append hs).append (ih fun x hx => h x (by simp [hx]))

theorem plain_padLeft {n : Nat} {s : Str} (h : Plain s) : Plain (padLeft n s) := by
  refine Plain.append (fun c hc => ?_) h
  rw [List.eq_of_mem_replicate hc]
  decide

variable {α : Type}

theorem plain_eigenPrint {fmt : α → Str} (h : ∀ a, Token (fmt a)) (m : EMat α) : Plain (eigenPrint fmt m) := by
  unfold eigenPrint
  split
  · intro c hc; simp at hc
  · refine plain_intercalate (by unfold Plain; decide) fun r hr => ?_
    obtain ⟨row, hrow, rfl⟩ := List.mem_map.1 hr
    refine plain_intercalate (by unfold Plain; decide) fun x hx => ?_
    obtain ⟨y, hy, rfl⟩ := List.mem_map.1 hx
    obtain ⟨i, -, rfl⟩ := List.mem_map.1 hrow
    obtain ⟨j, -, rfl⟩ := List.mem_map.1 hy
    exact plain_padLeft (plain_token (h _))

theorem words_padLeft {n : Nat} {s : Str} (h : Token s) : words (padLeft n s) = [s] := by
  unfold padLeft
  rw [words_blanks, words_token h]

theorem words_eigenPrint {fmt : α → Str} (h : ∀ a, Token (fmt a)) (m : EMat α) : words (eigenPrint fmt m) = table fmt m := by
  unfold eigenPrint table
  split
  · rename_i h0
    rcases h0 with h0 | h0 <;> simp [h0]
  · rw [words_intercalate _ (by decide), List.flatMap_map, List.flatMap_map]
    refine List.flatMap_congr fun i _ => ?_
    rw [words_intercalate _ (by decide), List.flatMap_map, List.flatMap_map, ← List.flatMap_singleton' ((List.range m.cols).map _),
      List.flatMap_map]
    refine List.flatMap_congr fun j _ => ?_
    exact words_padLeft (h _)

/-- The text of the values in `dataArray`. -/
theorem words_body {fmt : ℝ → Str} (h : ∀ a, Token (fmt a)) (m : EMat ℝ) :
    words ((List.range m.rows).flatMap fun i => ((List.range m.cols).flatMap fun j => fmt (m.at' i j) ++ [' ']) ++ ['\n']) = table fmt m := by
  have inner : ∀ (L : List Nat) (i : Nat), words (L.flatMap fun j => fmt (m.at' i j) ++ [' ']) = L.map fun j => fmt (m.at' i j) := by
    intro L i
    induction L with
    | nil => simp
    | cons j L ih =>
      rw [List.flatMap_cons, List.append_assoc, List.singleton_append, words_sep _ _ _ (by decide), ih, words_token (h _)]
      rfl
  have outer : ∀ L : List Nat, words (L.flatMap fun i => ((List.range m.cols).flatMap fun j => fmt (m.at' i j) ++ [' ']) ++ ['\n']) =
      L.flatMap fun i => (List.range m.cols).map fun j => fmt (m.at' i j) := by
    intro L
    induction L with
    | nil => simp
    | cons i L ih =>
      rw [List.flatMap_cons, List.append_assoc, List.singleton_append, words_sep _ _ _ (by decide), ih, inner]
      rfl
  exact outer _

theorem plain_body {fmt : ℝ → Str} (h : ∀ a, Token (fmt a)) (m : EMat ℝ) :
    Plain ((List.range m.rows).flatMap fun i => ((List.range m.cols).flatMap fun j => fmt (m.at' i j) ++ [' ']) ++ ['\n']) :=
  plain_flatMap fun _ _ => (plain_flatMap fun _ _ => (plain_token (h _)).append (by unfold Plain; decide)).append (by unfold Plain; decide)

/-- The elements of a data array. -/
def arrayEls (fm : Formats) (fmt : ℝ → Str) (name : Str) (m : EMat ℝ) : List (Str × Str) :=
  [("DataArray type=\"Float32\" Name=\"".toList ++ name ++ "\" NumberOfComponents=\"".toList ++ fm.int m.cols ++ "\" format=\"ascii\"".toList,
    '\n' :: (List.range m.rows).flatMap fun i => ((List.range m.cols).flatMap fun j => fmt (m.at' i j) ++ [' ']) ++ ['\n']),
   ("/DataArray".toList, ['\n'])]

theorem dataArray_eq (fm : Formats) (fmt : ℝ → Str) (name : Str) (m : EMat ℝ) (h : m.cols = 1 ∨ m.cols = 3) :
    dataArray fm.int fmt name m = some (render (arrayEls fm fmt name m)) := by
  unfold dataArray
  rw [if_pos h]
  simp [render, arrayEls]

theorem plain_lit (s : String) (h : ∀ c ∈ s.toList, c ≠ '<' ∧ c ≠ '>') : Plain s.toList := h

theorem arrayEls_plain {fm : Formats} (hf : fm.Ok) {fmt : ℝ → Str} (h : ∀ a, Token (fmt a)) {name : Str} (hn : Plain name) (m : EMat ℝ) :
    ∀ e ∈ arrayEls fm fmt name m, Plain e.1 ∧ Plain e.2 := by
  intro e he
  simp only [arrayEls, List.mem_cons, List.not_mem_nil, or_false] at he
  rcases he with rfl | rfl
  · refine ⟨((((plain_lit _ (by decide)).append hn).append (plain_lit _ (by decide))).append (plain_token (hf.int _))).append (plain_lit _ (by decide)), ?_⟩
    exact Plain.append (a := ['\n']) (by unfold Plain; decide) (plain_body h m)
  · exact ⟨by unfold Plain; decide, by unfold Plain; decide⟩

theorem arrayEls_items {fm : Formats} {fmt : ℝ → Str} (h : ∀ a, Token (fmt a)) (name : Str) (m : EMat ℝ) :
    (arrayEls fm fmt name m).map (fun e => (e.1, words e.2)) = Array'.items fm ⟨name, m.cols, table fmt m⟩ := by
  simp only [arrayEls, List.map_cons, List.map_nil, Array'.items, words_space _ _ (show '\n'.isWhitespace = true by decide), words_body h, words_nil]

end Bembel.Vtk
