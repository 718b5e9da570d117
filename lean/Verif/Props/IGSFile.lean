import Verif.Props.GeometryIGS
import Verif.Lemmas.IGSFile
import Verif.Spec.IGSFile
/-!
# C81: IGES files
-/

set_option linter.unusedSectionVars false

namespace Bembel.Props
namespace IGSFile
open Geo Bembel.Basis Spl Spec

variable {K : Type} [Field K] [LinearOrder K] [IsStrictOrderedRing K]

theorem digitChar_eq (d : Nat) (h : d < 10) : digitChar d = Nat.digitChar d := by
  interval_cases d <;> decide

theorem decAux_core : ∀ (f n : Nat) (ds : List Char), decAux f n ++ ds = Nat.toDigitsCore 10 f n ds
  | 0, n, ds => by simp [decAux, Nat.toDigitsCore]
  | f + 1, n, ds => by
    unfold decAux Nat.toDigitsCore
    by_cases h : n < 10
    · rw [if_pos h]
      simp [Nat.div_eq_of_lt h, Nat.mod_eq_of_lt h, digitChar_eq n h]
    · rw [if_neg h, List.append_assoc, List.singleton_append, decAux_core f]
      have : ¬ n / 10 = 0 := by omega
      simp [this, digitChar_eq (n % 10) (Nat.mod_lt _ (by norm_num))]

theorem dec_repr (n : Nat) : dec n = (Nat.repr n).toList := by
  have := decAux_core (n + 1) n []
  rw [List.append_nil] at this
  unfold dec
  rw [this]
  simp [Nat.repr, Nat.toDigits]

theorem repr_length (n : Nat) : (Nat.repr n).length = (dec n).length := by rw [dec_repr, String.length_toList]

theorem numberAt (l r : List Char) (a n k : Nat) (hl : l.length = a) (hk : (dec k).length ≤ n) : NumberAt (l ++ (setwRight n (dec k) ++ r)) a n k := by
  unfold NumberAt columns
  rw [← hl, List.drop_left, List.take_append_of_le_length (by rw [setwRight_length n _ hk]), List.take_of_length_le (by rw [setwRight_length n _ hk]), repr_length]
  unfold setwRight
  rw [dec_repr]

/-- A line with 72 columns of text. -/
theorem igsLine (l : List Char) (c : Char) (k : Nat) (hl : l.length = 72) (hk : k < 10 ^ 7) : IGSLine c k (l ++ (c :: setwRight 7 (dec k))) := by
  have h7 := setwRight_length 7 (dec k) (dec_length k 7 hk (by norm_num))
  refine ⟨by simp [hl, h7], ?_, ?_⟩
  · rw [List.getElem?_append_right (by omega), hl]; rfl
  · have := numberAt (l ++ [c]) [] 73 7 k (by simp [hl]) (dec_length k 7 hk (by norm_num))
    simpa using this

/-- The lines of a section are numbered. -/
theorem section_lines (sec : List (List Char)) (c : Char) (hw : ∀ l ∈ sec, l.length ≤ 72) (hn : sec.length < 10 ^ 7) :
    (writeSection sec c).length = sec.length ∧ ∀ k (hk : k < (writeSection sec c).length), IGSLine c (k + 1) ((writeSection sec c)[k]) := by
  refine ⟨by simp [writeSection], ?_⟩
  intro k hk
  have hk' : k < sec.length := by simpa [writeSection] using hk
  simp only [writeSection, List.getElem_map, List.getElem_range]
  refine igsLine _ c (k + 1) (setwLeft_length 72 _ ?_) (by omega)
  rw [List.getD_eq_getElem?_getD, List.getElem?_eq_getElem hk']
  exact hw _ (List.getElem_mem _)

theorem fields_length (fs : List (List Char)) (h : ∀ f ∈ fs, f.length ≤ 8) : (fs.flatMap (setwRight 8)).length = 8 * fs.length := by
  induction fs with
  | nil => rfl
  | cons f fs ih =>
    rw [List.flatMap_cons, List.length_append, ih (fun f hf => h f (by simp [hf])), setwRight_length 8 f (h f (by simp)), List.length_cons]; omega

/-- The number in a field. -/
theorem field_number (fs : List (List Char)) (h : ∀ f ∈ fs, f.length ≤ 8) (k : Nat) (hk : k < 10 ^ 8) (gs : List (List Char)) (r : List Char) :
    NumberAt ((fs ++ dec k :: gs).flatMap (setwRight 8) ++ r) (8 * fs.length) 8 k := by
  rw [List.flatMap_append, List.flatMap_cons, List.append_assoc, List.append_assoc]
  exact numberAt _ _ _ 8 k (fields_length fs h) (dec_length k 8 hk (by norm_num))

theorem dec0 : (dec 0).length ≤ 8 := by decide

theorem directory_fields (start lines : Nat) (h1 : start < 10 ^ 8) (h2 : lines < 10 ^ 8) :
    (∀ f ∈ ["128".toList, dec start, dec 0, dec 0, dec 0, dec 0, dec 0, dec 0, dec 0], f.length ≤ 8) ∧
    ∀ f ∈ ["128".toList, dec 0, dec 0, dec lines, dec 0, " ".toList, " ".toList, " ".toList, dec 0], f.length ≤ 8 := by
  have l1 := dec_length start 8 h1 (by norm_num)
  have l2 := dec_length lines 8 h2 (by norm_num)
  have l0 := dec0
  constructor
  · intro f hf
    simp only [List.mem_cons, List.not_mem_nil, or_false] at hf
    rcases hf with rfl | rfl | rfl | rfl | rfl | rfl | rfl | rfl | rfl <;> first | assumption | decide
  · intro f hf
    simp only [List.mem_cons, List.not_mem_nil, or_false] at hf
    rcases hf with rfl | rfl | rfl | rfl | rfl | rfl | rfl | rfl | rfl <;> first | assumption | decide

/-- The two lines of a patch in the directory section. -/
theorem directory_entry (i start lines : Nat) (h1 : start < 10 ^ 8) (h2 : lines < 10 ^ 8) (hi : (i + 1) * 2 < 10 ^ 7) :
    ∃ a b, directoryLines i start lines = [a, b] ∧ IGSLine 'D' (2 * i + 1) a ∧ IGSLine 'D' (2 * i + 2) b ∧ NumberAt a 0 8 128 ∧ NumberAt b 0 8 128 ∧
      NumberAt a 8 8 start ∧ NumberAt b 24 8 lines := by
  obtain ⟨f1, f2⟩ := directory_fields start lines h1 h2
  refine ⟨_, _, rfl, ?_, ?_, ?_, ?_, ?_, ?_⟩
  · rw [show (i + 1) * 2 - 1 = 2 * i + 1 by omega]
    exact igsLine _ 'D' _ (by rw [fields_length _ f1]; rfl) (by omega)
  · rw [show (i + 1) * 2 = 2 * i + 2 by omega]
    exact igsLine _ 'D' _ (by rw [fields_length _ f2]; rfl) (by omega)
  · exact field_number [] (by simp) 128 (by norm_num) _ _
  · exact field_number [] (by simp) 128 (by norm_num) _ _
  · exact field_number ["128".toList] (fun f hf => f1 f (by simp at hf; simp [hf])) start h1 _ _
  · exact field_number ["128".toList, dec 0, dec 0] (fun f hf => f2 f (by simp at hf; rcases hf with rfl | rfl <;> simp)) lines h2 _ _

theorem directory_length : ∀ (ns : List Nat) (i start : Nat), (writeDirectory i start ns).length = 2 * ns.length
  | [], _, _ => rfl
  | n :: ns, i, start => by
    rw [writeDirectory, List.length_append, directory_length ns]
    simp [directoryLines]; omega

/-- The lines of a directory. -/
theorem directory_lines : ∀ (ns : List Nat) (i start j : Nat) (hj : j < ns.length), start + ns.sum < 10 ^ 7 → (i + ns.length) * 2 < 10 ^ 7 →
    ∃ a b, (writeDirectory i start ns)[2 * j]? = some a ∧ (writeDirectory i start ns)[2 * j + 1]? = some b ∧
      IGSLine 'D' (2 * (i + j) + 1) a ∧ IGSLine 'D' (2 * (i + j) + 2) b ∧ NumberAt a 0 8 128 ∧ NumberAt b 0 8 128 ∧
      NumberAt a 8 8 (start + (ns.take j).sum) ∧ NumberAt b 24 8 ns[j]
  | [], i, start, j, hj, _, _ => absurd hj (by simp)
  | n :: ns, i, start, j, hj, h1, h2 => by
    rw [List.sum_cons] at h1
    rw [List.length_cons] at h2 hj
    rw [writeDirectory]
    have hl : (directoryLines i start n).length = 2 := rfl
    cases j with
    | zero =>
      obtain ⟨a, b, e, f⟩ := directory_entry i start n (by omega) (by omega) (by omega)
      refine ⟨a, b, ?_, ?_, by simpa using f⟩
      · rw [e]; rfl
      · rw [e]; rfl
    | succ j =>
      obtain ⟨a, b, e1, e2, f⟩ := directory_lines ns (i + 1) (start + n) j (by omega) (by omega) (by omega)
      refine ⟨a, b, ?_, ?_, ?_⟩
      · rw [List.getElem?_append_right (by omega), hl, show 2 * (j + 1) - 2 = 2 * j by omega, e1]
      · rw [List.getElem?_append_right (by omega), hl, show 2 * (j + 1) + 1 - 2 = 2 * j + 1 by omega, e2]
      · rw [show i + 1 + j = i + (j + 1) by omega] at f
        simpa [List.take_succ_cons, Nat.add_assoc] using f

/-- The parameter section as a list of the sections of the patches. -/
theorem parameters_eq : ∀ (ss : List (List (List Char))) (i first : Nat), writeParameters i first ss =
    (List.range ss.length).flatMap fun j => writeParameterSection (ss.getD j [])
      (fun k => setwRight 8 (dec (1 + 2 * (i + j))) ++ ('P' :: setwRight 7 (dec (first + ((ss.take j).map List.length).sum + k))))
  | [], _, _ => rfl
  | s :: ss, i, first => by
    rw [writeParameters, parameters_eq ss, List.length_cons, List.range_succ_eq_map, List.flatMap_cons, List.flatMap_map]
    simp only [List.getD_cons_zero, List.getD_cons_succ, Nat.add_zero, List.take_zero, List.map_nil, List.sum_nil, List.take_succ_cons, List.map_cons, List.sum_cons]
    congr 2
    funext j
    congr 2
    funext k
    rw [show i + 1 + j = i + j.succ by omega, Nat.add_assoc first]

theorem parameters_length : ∀ (ss : List (List (List Char))) (i first : Nat), (writeParameters i first ss).length = (ss.map List.length).sum
  | [], _, _ => rfl
  | s :: ss, i, first => by
    rw [writeParameters, List.length_append, parameters_length ss]
    simp [writeParameterSection]

/-- The lines of the parameter section. -/
theorem parameter_lines : ∀ (ss : List (List (List Char))) (i first j k : Nat) (s : List (List Char)) (l : List Char), ss[j]? = some s → s[k]? = some l →
    (∀ s ∈ ss, ∀ l ∈ s, l.length ≤ 64) → first + (ss.map List.length).sum < 10 ^ 7 → (i + ss.length) * 2 < 10 ^ 7 →
    ∃ a, (writeParameters i first ss)[((ss.take j).map List.length).sum + k]? = some a ∧
      IGSLine 'P' (first + ((ss.take j).map List.length).sum + k) a ∧ columns a 0 64 = l ++ List.replicate (64 - l.length) ' ' ∧ NumberAt a 64 8 (2 * (i + j) + 1)
  | [], i, first, j, k, s, l, hj, _, _, _, _ => absurd hj (by simp)
  | t :: ss, i, first, j, k, s, l, hj, hk, hw, h1, h2 => by
    rw [List.map_cons, List.sum_cons] at h1
    rw [List.length_cons] at h2
    rw [writeParameters]
    cases j with
    | zero =>
      obtain rfl : t = s := by simpa using hj
      have hkl := (List.getElem?_eq_some_iff.1 hk).1
      have hl : l.length ≤ 64 := hw t (by simp) l (List.mem_of_getElem? hk)
      have h8 : (dec (1 + 2 * i)).length ≤ 8 := dec_length _ 8 (by omega) (by norm_num)
      have h72 : ((l ++ List.replicate (64 - l.length) ' ') ++ setwRight 8 (dec (1 + 2 * i))).length = 72 := by
        rw [List.length_append, setwRight_length 8 _ h8, List.length_append, List.length_replicate]; omega
      refine ⟨l ++ List.replicate (64 - l.length) ' ' ++ (setwRight 8 (dec (1 + 2 * i)) ++ ('P' :: setwRight 7 (dec (first + k)))), ?_, ?_, ?_, ?_⟩
      · rw [List.take_zero, List.map_nil, List.sum_nil, Nat.zero_add, List.getElem?_append_left (by simpa [writeParameterSection] using hkl)]
        simp only [writeParameterSection, List.getElem?_map]
        rw [List.getElem?_range hkl]
        simp [List.getD_eq_getElem?_getD, hk]
      · have := igsLine _ 'P' (first + k) h72 (by omega)
        rw [← List.append_assoc]
        simpa using this
      · unfold columns
        rw [List.drop_zero]
        exact List.take_left' (by simp; omega)
      · rw [show 2 * (i + 0) + 1 = 1 + 2 * i by omega]
        exact numberAt _ _ 64 8 _ (by simp; omega) h8
    | succ j =>
      obtain ⟨a, e1, e2⟩ := parameter_lines ss (i + 1) (first + t.length) j k s l (by simpa using hj) hk (fun s hs => hw s (by simp [hs])) (by omega) (by omega)
      refine ⟨a, ?_, ?_⟩
      · rw [List.take_succ_cons, List.map_cons, List.sum_cons, Nat.add_assoc, List.getElem?_append_right (by simp [writeParameterSection])]
        rw [show t.length + (((ss.take j).map List.length).sum + k) - (writeParameterSection t fun k => setwRight 8 (dec (1 + 2 * i)) ++ ('P' :: setwRight 7 (dec (first + k)))).length
          = ((ss.take j).map List.length).sum + k by simp [writeParameterSection]]
        exact e1
      · rw [List.take_succ_cons, List.map_cons, List.sum_cons, show i + (j + 1) = i + 1 + j by omega, ← Nat.add_assoc first]
        exact e2

/-- A line of a section does not exceed the width or is a single entry. -/
theorem line_or_entry (data : List (List Char)) (w : Nat) : ∀ line ∈ makeSection data w, line.length ≤ w ∨ line ∈ terminated data := by
  have key : ∀ n, n ≤ data.length → ∀ line,
      line ∈ (forLoop n (sectionStep data w) ([], [])).1 ++ [(forLoop n (sectionStep data w) ([], [])).2] → line.length ≤ w ∨ line ∈ terminated data := by
    intro n
    induction n with
    | zero => intro _ line hl; simp at hl; simp [hl]
    | succ n ih =>
      intro hn line hl
      have ih := ih (by omega)
      rw [forLoop_succ] at hl
      generalize forLoop n (sectionStep data w) ([], []) = st at hl ih
      have hmem : data.getD n [] ++ (if n + 1 < data.length then [','] else [';']) ∈ terminated data := by
        unfold terminated
        exact List.mem_map.2 ⟨n, List.mem_range.2 (by omega), rfl⟩
      unfold sectionStep at hl
      generalize data.getD n [] ++ (if n + 1 < data.length then [','] else [';']) = item at hl hmem
      by_cases hw : st.2.length + item.length > w
      · simp only [if_pos hw] at hl
        simp only [List.append_assoc, List.nil_append, List.mem_append, List.mem_singleton] at hl
        rcases hl with h1 | h1 | h1
        · exact ih line (by simp [h1])
        · exact ih line (by simp [h1])
        · rw [h1]; exact Or.inr hmem
      · simp only [if_neg hw] at hl
        simp only [List.mem_append, List.mem_singleton] at hl
        rcases hl with h1 | h1
        · exact ih line (by simp [h1])
        · rw [h1, List.length_append]; omega
  unfold makeSection
  exact key _ le_rfl

/-! ### reading -/

/-- Skipping rows of other sections. -/
theorem skip_append (l r : List (List Char)) (h : ∀ row ∈ l, ∃ c, column72 row = some c ∧ c ≠ 'D') : skipToDirectory (l ++ r) = skipToDirectory r := by
  induction l with
  | nil => rfl
  | cons row l ih =>
    obtain ⟨c, h1, h2⟩ := h row (by simp)
    rw [List.cons_append, skipToDirectory, h1]
    simp only [Option.bind_eq_bind, Option.bind_some, if_neg h2]
    exact ih fun row hr => h row (by simp [hr])

/-- The row of a section with a short line. -/
theorem section_row (l : List Char) (c : Char) (k : Nat) (h : l.length ≤ 72) : column72 (setwLeft 72 l ++ (c :: setwRight 7 (dec k))) = some c :=
  column72_at _ _ c (setwLeft_length 72 l h)

/-- The row of a section with a long line. -/
theorem section_row_long (l r : List Char) (h : 72 < l.length) : column72 (setwLeft 72 l ++ r) = l[72]? := by
  unfold column72 setwLeft
  rw [if_neg (by simp; omega), List.append_assoc, List.getD_eq_getElem?_getD, List.getElem?_append_left (by omega), List.getElem?_eq_getElem h]
  rfl

theorem mem_section (sec : List (List Char)) (c : Char) (row : List Char) (h : row ∈ writeSection sec c) :
    ∃ l ∈ sec, ∃ k, row = setwLeft 72 l ++ (c :: setwRight 7 (dec k)) := by
  simp only [writeSection, List.mem_map, List.mem_range] at h
  obtain ⟨k, hk, rfl⟩ := h
  refine ⟨sec.getD k [], ?_, k + 1, rfl⟩
  rw [List.getD_eq_getElem?_getD, List.getElem?_eq_getElem hk]
  exact List.getElem_mem _

theorem terminated_mem (data : List (List Char)) (line : List Char) (h : line ∈ terminated data) : ∃ d ∈ data, ∃ c, c ≠ 'D' ∧ line = d ++ [c] := by
  simp only [terminated, List.mem_map, List.mem_range] at h
  obtain ⟨k, hk, rfl⟩ := h
  refine ⟨data.getD k [], ?_, ?_⟩
  · rw [List.getD_eq_getElem?_getD, List.getElem?_eq_getElem hk]
    exact List.getElem_mem _
  · split_ifs
    · exact ⟨',', by decide, rfl⟩
    · exact ⟨';', by decide, rfl⟩

theorem makeSection_length (data : List (List Char)) (w : Nat) : (makeSection data w).length ≤ data.length + 1 := by
  have hle : ∀ n, (forLoop n (sectionStep data w) ([], [])).1.length ≤ n := by
    intro n
    induction n with
    | zero => simp
    | succ n ih =>
      rw [forLoop_succ]
      generalize forLoop n (sectionStep data w) ([], []) = st at ih
      unfold sectionStep
      simp only
      generalize data.getD n [] ++ (if n + 1 < data.length then [','] else [';']) = item
      split_ifs
      · simp only [List.length_append, List.length_singleton]; omega
      · omega
  have := hle data.length
  unfold makeSection
  simp only [List.length_append, List.length_singleton]
  omega

/-- The words of the second line of a patch. -/
theorem read_lines (i lines : Nat) (h : lines < 10 ^ 7) (hi : (i + 1) * 2 < 2147483648) (start : Nat) : ∃ b rest,
    (directoryLines i start lines)[1]? = some b ∧ (splitBlank [] b).mapM stoiText = some (128 :: 0 :: 0 :: (lines : Int) :: rest) := by
  obtain ⟨e, he⟩ := split_end ((i + 1) * 2) hi
  have d0 : (dec 0).length < 8 := by decide
  have dl : (dec lines).length < 8 := by have := dec_length lines 7 h (by norm_num); omega
  have b0 := dec_blank 0
  have b1 := dec_blank lines
  have b2 : ∀ c ∈ "128".toList, c.isWhitespace = false := by decide
  have s0 : stoiText (dec 0) = some 0 := by decide
  have s1 : stoiText (dec lines) = some (lines : Int) := by
    have := stoi_dec lines (by omega) [] (by simp)
    rwa [List.append_nil] at this
  have s2 : stoiText "128".toList = some 128 := by decide
  refine ⟨_, 0 :: 0 :: e, rfl, ?_⟩
  simp only [List.flatMap_cons, List.flatMap_nil, List.append_assoc, List.append_nil]
  rw [split_field 8 _ b2 (by decide), split_field 8 _ b0 d0, split_field 8 _ b0 d0, split_field 8 _ b1 dl, split_field 8 _ b0 d0, split_empty, split_empty, split_empty,
    split_field 8 _ b0 d0]
  simp only [if_true, if_neg (dec_ne _), if_neg (show "128".toList ≠ [] by decide), List.nil_append, List.cons_append]
  simp only [List.mapM_cons, s0, s1, s2, he]
  rfl

/-- The words of the first line of a patch. -/
theorem read_first (i lines : Nat) (start : Nat) (h : start < 10 ^ 7) (hi : (i + 1) * 2 < 2147483648) : ∃ a rest,
    (directoryLines i start lines)[0]? = some a ∧ (splitBlank [] a).mapM stoiText = some (128 :: rest) := by
  obtain ⟨e, he⟩ := split_end ((i + 1) * 2 - 1) (by omega)
  have d0 : (dec 0).length < 8 := by decide
  have dl : (dec start).length < 8 := by have := dec_length start 7 h (by norm_num); omega
  have b0 := dec_blank 0
  have b1 := dec_blank start
  have b2 : ∀ c ∈ "128".toList, c.isWhitespace = false := by decide
  have s0 : stoiText (dec 0) = some 0 := by decide
  have s1 : stoiText (dec start) = some (start : Int) := by
    have := stoi_dec start (by omega) [] (by simp)
    rwa [List.append_nil] at this
  have s2 : stoiText "128".toList = some 128 := by decide
  refine ⟨_, (start : Int) :: 0 :: 0 :: 0 :: 0 :: 0 :: 0 :: 0 :: e, rfl, ?_⟩
  simp only [List.flatMap_cons, List.flatMap_nil, List.append_assoc, List.append_nil]
  rw [split_field 8 _ b2 (by decide), split_field 8 _ b1 dl, split_field 8 _ b0 d0, split_field 8 _ b0 d0, split_field 8 _ b0 d0, split_field 8 _ b0 d0,
    split_field 8 _ b0 d0, split_field 8 _ b0 d0, split_field 8 _ b0 d0]
  simp only [if_true, if_neg (dec_ne _), if_neg (show "128".toList ≠ [] by decide), List.nil_append, List.cons_append]
  simp only [List.mapM_cons, s0, s1, s2, he]
  rfl

/-- The letter of the directory rows. -/
theorem directory_letter (i start lines : Nat) (h1 : start < 10 ^ 8) (h2 : lines < 10 ^ 8) : ∀ row ∈ directoryLines i start lines, column72 row = some 'D' := by
  obtain ⟨f1, f2⟩ := directory_fields start lines h1 h2
  intro row hr
  simp only [directoryLines, List.mem_cons, List.not_mem_nil, or_false] at hr
  rcases hr with rfl | rfl
  · exact column72_at _ _ _ (by rw [fields_length _ f1]; rfl)
  · exact column72_at _ _ _ (by rw [fields_length _ f2]; rfl)

/-- Reading a directory. -/
theorem read_directory : ∀ (ns : List Nat) (i start : Nat) (row : List Char) (rows : List (List Char)), start + ns.sum < 10 ^ 7 → (i + ns.length) * 2 < 2147483648 →
    column72 row = some 'P' → readDirectory (writeDirectory i start ns ++ row :: rows) = some (ns.map Int.ofNat, row :: rows)
  | [], i, start, row, rows, _, _, hr => by
    rw [writeDirectory, List.nil_append]
    cases rows with
    | nil => simp [readDirectory, hr]
    | cons r rows => simp [readDirectory, hr]
  | n :: ns, i, start, row, rows, h1, h2, hr => by
    rw [List.sum_cons] at h1
    rw [List.length_cons] at h2
    obtain ⟨a, ra, ea, fa⟩ := read_first i n start (by omega) (by omega)
    obtain ⟨b, rb, eb, fb⟩ := read_lines i n (by omega) (by omega) start
    have hD := directory_letter i start n (by omega) (by omega)
    obtain ⟨u, v, huv⟩ : ∃ u v, directoryLines i start n = [u, v] := ⟨_, _, rfl⟩
    rw [huv] at ea eb hD
    obtain rfl : u = a := by simpa using ea
    obtain rfl : v = b := by simpa using eb
    have ih := read_directory ns (i + 1) (start + n) row rows (by omega) (by omega) hr
    rw [writeDirectory, huv, List.append_assoc, List.cons_append, List.cons_append, List.nil_append, readDirectory, hD u (by simp)]
    simp only [Option.bind_eq_bind, Option.bind_some, if_neg (show 'D' ≠ 'P' by decide), fa, fb, ih, List.getElem?_cons_zero, if_true, List.map_cons]
    rfl

/-- Further rows do not matter. -/
theorem loadIGS_append (parse : List Char → Tok K) (junk : Nat → K) : ∀ (ns : List Nat) (rows e : List (List Char)) (ps : List (Patch K)),
    loadIGS parse junk ns rows = some ps → loadIGS parse junk ns (rows ++ e) = some ps
  | [], rows, e, ps, h => h
  | n :: ns, rows, e, ps, h => by
    rw [loadIGS] at h ⊢
    by_cases hn : rows.length < n
    · rw [if_pos hn] at h; cases h
    · rw [if_neg hn] at h
      rw [if_neg (by rw [List.length_append]; omega), List.take_append_of_le_length (by omega), List.drop_append_of_le_length (by omega)]
      cases h1 : loadPatchIGS junk (((rows.take n).flatMap lineWords).map parse) with
      | none => rw [h1] at h; cases h
      | some p =>
        cases h2 : loadIGS parse junk ns (rows.drop n) with
        | none => rw [h1, h2] at h; cases h
        | some qs =>
          rw [h1, h2] at h
          rw [loadIGS_append parse junk ns _ e qs h2]
          exact h

theorem header_rows : ∀ row ∈ igsHeader, column72 row = some 'S' := by
  intro row hr
  obtain ⟨l, hl, k, rfl⟩ := mem_section _ _ _ hr
  refine section_row l 'S' k ?_
  simp only [List.mem_cons, List.not_mem_nil, or_false] at hl
  rcases hl with rfl | rfl | rfl | rfl <;> decide

theorem global_short (fileName date : List Char) (hd : date.length ≤ 71) : ∀ d ∈ globalEntries fileName date, d = fileName ∨ d.length ≤ 71 := by
  intro d h
  simp only [globalEntries, List.mem_cons, List.not_mem_nil, or_false] at h
  rcases h with rfl | rfl | rfl | rfl | rfl | rfl | rfl | rfl | rfl | rfl | rfl | rfl | rfl | rfl | rfl | rfl | rfl | rfl | rfl | rfl | rfl | rfl | rfl | rfl
  all_goals first | exact Or.inl rfl | exact Or.inr hd | exact Or.inr (by decide)

theorem global_rows (fileName date : List Char) (hd : date.length ≤ 71) (hf : fileName[72]? ≠ some 'D') :
    ∀ row ∈ writeGlobal fileName date, ∃ c, column72 row = some c ∧ c ≠ 'D' := by
  intro row hr
  obtain ⟨l, hl, k, rfl⟩ := mem_section _ _ _ hr
  by_cases hl' : l.length ≤ 72
  · exact ⟨'G', section_row l 'G' k hl', by decide⟩
  · rcases line_or_entry _ _ l hl with h | h
    · exact absurd h hl'
    · rw [section_row_long l _ (by omega)]
      obtain ⟨d, hd1, c, hc, rfl⟩ := terminated_mem _ _ h
      have hlen : d.length ≥ 72 := by simp at hl'; omega
      rcases global_short fileName date hd d hd1 with e | h3
      · rcases Nat.lt_or_ge 72 d.length with h4 | h4
        · rw [List.getElem?_append_left h4, List.getElem?_eq_getElem h4]
          refine ⟨_, rfl, fun h5 => hf ?_⟩
          rw [← e, List.getElem?_eq_getElem h4, h5]
        · refine ⟨c, ?_, hc⟩
          rw [List.getElem?_append_right h4, show 72 - d.length = 0 by omega]
          rfl
      · omega

theorem parameter_first (s : List (List Char)) (ss : List (List (List Char))) (hne : s ≠ []) (hw : ∀ l ∈ s, l.length ≤ 64) :
    ∃ row rows, writeParameters 0 1 (s :: ss) = row :: rows ∧ column72 row = some 'P' := by
  cases s with
  | nil => exact absurd rfl hne
  | cons l s =>
    have e : ∃ rows, writeParameters 0 1 ((l :: s) :: ss) = ((l ++ List.replicate (64 - l.length) ' ') ++ (setwRight 8 (dec 1) ++ ('P' :: setwRight 7 (dec 1)))) :: rows := by
      rw [writeParameters, writeParameterSection, List.length_cons, List.range_succ_eq_map, List.map_cons, List.cons_append]
      exact ⟨_, rfl⟩
    obtain ⟨rows, e⟩ := e
    refine ⟨_, rows, e, ?_⟩
    · rw [← List.append_assoc]
      refine column72_at _ _ _ ?_
      have := hw l (by simp)
      rw [List.length_append, setwRight_length 8 (dec 1) (by decide), List.length_append, List.length_replicate]
      omega

theorem step_fit (data : List (List Char)) (w i : Nat) (st : List (List Char) × List Char) (d : List Char) (hd : data.getD i [] = d) (hi : i + 1 < data.length)
    (h : st.2.length + (d.length + 1) ≤ w) : sectionStep data w st i = (st.1, st.2 ++ (d ++ [','])) := by
  unfold sectionStep
  rw [hd, if_pos hi]
  simp only
  rw [if_neg (by simp; omega)]

theorem step_long (data : List (List Char)) (w i : Nat) (st : List (List Char) × List Char) (d : List Char) (hd : data.getD i [] = d) (hi : i + 1 < data.length)
    (h : w < st.2.length + (d.length + 1)) : sectionStep data w st i = (st.1 ++ [st.2], d ++ [',']) := by
  unfold sectionStep
  rw [hd, if_pos hi]
  simp only
  rw [if_pos (by simp; omega), List.nil_append]

theorem step_lines (data : List (List Char)) (w i : Nat) (st : List (List Char) × List Char) : ∃ r, (sectionStep data w st i).1 = st.1 ++ r := by
  unfold sectionStep
  generalize data.getD i [] ++ (if i + 1 < data.length then [','] else [';']) = item
  simp only
  split_ifs
  · exact ⟨[st.2], rfl⟩
  · exact ⟨[], by simp⟩

/-- Lines once finished stay. -/
theorem section_prefix (data : List (List Char)) (w n : Nat) : ∀ m, ∃ rest, (forLoop (n + m) (sectionStep data w) ([], [])).1 = (forLoop n (sectionStep data w) ([], [])).1 ++ rest
  | 0 => ⟨[], by simp⟩
  | m + 1 => by
    obtain ⟨rest, h⟩ := section_prefix data w n m
    obtain ⟨r, h'⟩ := step_lines data w (n + m) (forLoop (n + m) (sectionStep data w) ([], []))
    rw [← Nat.add_assoc, forLoop_succ, h', h, List.append_assoc]
    exact ⟨_, rfl⟩

/-- A long file name has a line of the global section for itself. -/
theorem global_long (fileName date : List Char) (h : 72 < fileName.length) : ∃ rest, makeSection (globalEntries fileName date) 72 =
    "1H,,1H;,Bembel,".toList :: (fileName ++ [',']) :: rest := by
  have h24 : (globalEntries fileName date).length = 24 := rfl
  have h5 : (forLoop 5 (sectionStep (globalEntries fileName date) 72) ([], [])).1 = ["1H,,1H;,Bembel,".toList, fileName ++ [',']] := by
    rw [forLoop_succ, forLoop_succ, forLoop_succ, forLoop_succ, forLoop_succ, forLoop_zero,
      step_fit _ 72 0 _ "1H,".toList rfl (by rw [h24]; norm_num) (by decide),
      step_fit _ 72 1 _ "1H;".toList rfl (by rw [h24]; norm_num) (by decide),
      step_fit _ 72 2 _ "Bembel".toList rfl (by rw [h24]; norm_num) (by decide),
      step_long _ 72 3 _ fileName rfl (by rw [h24]; norm_num) (by simp only [List.length_append]; omega),
      step_long _ 72 4 _ "Bembel".toList rfl (by rw [h24]; norm_num) (by simp only [List.length_append]; omega)]
    rfl
  obtain ⟨rest, hr⟩ := section_prefix (globalEntries fileName date) 72 5 19
  unfold makeSection
  have h24' : (globalEntries fileName date).length = 5 + 19 := rfl
  rw [h24']
  simp only
  rw [hr, h5]
  exact ⟨_, rfl⟩

/-- A word that does not start with a digit or sign is not a number. -/
theorem stoi_word (c : Char) (w : List Char) (h1 : c.isDigit = false) (h2 : c ≠ '-') (h3 : c ≠ '+') : stoiText (c :: w) = none := by
  unfold stoiText
  simp [h1, h2, h3]

/-- The first word of a line. -/
theorem split_first : ∀ (r acc : List Char), acc ≠ [] → ∃ w ws, splitBlank acc r = (acc ++ w) :: ws
  | [], acc, h => ⟨[], [], by rw [splitBlank, if_neg h]; simp⟩
  | c :: r, acc, h => by
    rw [splitBlank]
    by_cases hc : c.isWhitespace
    · rw [if_pos hc, if_neg h]; exact ⟨[], _, by rw [List.append_nil]⟩
    · rw [if_neg hc]
      obtain ⟨w, ws, e⟩ := split_first r (acc ++ [c]) (by simp)
      exact ⟨c :: w, ws, by rw [e]; simp⟩

theorem makeSection_ne (data : List (List Char)) (w : Nat) : makeSection data w ≠ [] := by simp [makeSection]

end IGSFile

open Geo Bembel.Basis Spl Spec IGSFile

variable {K : Type} [Field K] [LinearOrder K] [IsStrictOrderedRing K]

namespace IGSFile

/-- The counts in the last line. -/
theorem terminate_counts (a b c : Nat) (ha : a < 10 ^ 7) (hb : b < 10 ^ 7) (hc : c < 10 ^ 7) :
    NumberAt (terminateLine a b c) 0 7 4 ∧ NumberAt (terminateLine a b c) 8 7 a ∧ NumberAt (terminateLine a b c) 16 7 b ∧
      NumberAt (terminateLine a b c) 24 7 c ∧ (terminateLine a b c)[7]? = some 'S' ∧ (terminateLine a b c)[15]? = some 'G' ∧
      (terminateLine a b c)[23]? = some 'D' ∧ (terminateLine a b c)[31]? = some 'P' := by
  have l1 := dec_length a 7 ha (by norm_num)
  have l2 := dec_length b 7 hb (by norm_num)
  have l3 := dec_length c 7 hc (by norm_num)
  have l0 : (dec 4).length ≤ 7 := by decide
  obtain ⟨R, hR⟩ : ∃ R, terminateLine a b c = setwRight 7 (dec 4) ++ ('S' :: (setwRight 7 (dec a) ++ ('G' :: (setwRight 7 (dec b) ++ ('D' ::
      (setwRight 7 (dec c) ++ ('P' :: R))))))) := by
    unfold terminateLine
    rw [setwLeft]
    simp only [List.append_assoc, List.singleton_append, List.cons_append, List.nil_append]
    exact ⟨_, rfl⟩
  have m0 := setwRight_length 7 _ l0
  have m1 := setwRight_length 7 _ l1
  have m2 := setwRight_length 7 _ l2
  have m3 := setwRight_length 7 _ l3
  rw [hR]
  refine ⟨numberAt [] _ 0 7 4 rfl l0, ?_, ?_, ?_, ?_, ?_, ?_, ?_⟩
  · have := numberAt (setwRight 7 (dec 4) ++ ['S']) ('G' :: (setwRight 7 (dec b) ++ ('D' :: (setwRight 7 (dec c) ++ ('P' :: R))))) 8 7 a (by simp [m0]) l1
    simpa using this
  · have := numberAt (setwRight 7 (dec 4) ++ ['S'] ++ setwRight 7 (dec a) ++ ['G']) ('D' :: (setwRight 7 (dec c) ++ ('P' :: R))) 16 7 b (by simp [m0, m1]) l2
    simpa using this
  · have := numberAt (setwRight 7 (dec 4) ++ ['S'] ++ setwRight 7 (dec a) ++ ['G'] ++ setwRight 7 (dec b) ++ ['D']) ('P' :: R) 24 7 c (by simp [m0, m1, m2]) l3
    simpa using this
  all_goals simp [List.getElem?_append, List.getElem?_cons, m0, m1, m2, m3]

end IGSFile

/-- C81: the file consists of the sections S, G, D, P and T; all lines have 80 columns, the letter of their section and their number in the section.  In
the directory section the two lines of patch `j` hold the number of its first parameter line and the number of its parameter lines; parameter line number
`start + k` of the patch holds line `k` of its data and the number `2 j + 1` of its directory entry.  The last line holds the numbers of lines of the
other sections.  (For entries that fit into the lines and as long as
the line numbers have at most seven digits.) -/
theorem C81_format (fileName date : List Char) (entries : List (List (List Char))) (hf : fileName.length ≤ 71) (hd : date.length ≤ 71)
    (he : ∀ e ∈ entries, ∀ w ∈ e, w.length + 1 ≤ 64)
    (hn : 1 + (entries.map fun e => (makeSection e 64).length).sum < 10 ^ 7) (hp : entries.length * 2 < 10 ^ 7) :
    ∃ S G D Q T, writeIGSFile fileName date entries = S ++ G ++ D ++ Q ++ [T] ∧ S.length = 4 ∧ D.length = 2 * entries.length ∧
      Q.length = (entries.map fun e => (makeSection e 64).length).sum ∧
      (∀ k (h : k < S.length), IGSLine 'S' (k + 1) S[k]) ∧ (∀ k (h : k < G.length), IGSLine 'G' (k + 1) G[k]) ∧ IGSLine 'T' 1 T ∧
      (NumberAt T 0 7 S.length ∧ NumberAt T 8 7 G.length ∧ NumberAt T 16 7 D.length ∧ NumberAt T 24 7 Q.length ∧
        T[7]? = some 'S' ∧ T[15]? = some 'G' ∧ T[23]? = some 'D' ∧ T[31]? = some 'P') ∧
      ∀ j (hj : j < entries.length), ∃ a b, D[2 * j]? = some a ∧ D[2 * j + 1]? = some b ∧ IGSLine 'D' (2 * j + 1) a ∧ IGSLine 'D' (2 * j + 2) b ∧
        NumberAt a 0 8 128 ∧ NumberAt b 0 8 128 ∧
        NumberAt a 8 8 (1 + ((entries.take j).map fun e => (makeSection e 64).length).sum) ∧ NumberAt b 24 8 (makeSection entries[j] 64).length ∧
        ∀ k (hk : k < (makeSection entries[j] 64).length), ∃ q, Q[((entries.take j).map fun e => (makeSection e 64).length).sum + k]? = some q ∧
          IGSLine 'P' (1 + ((entries.take j).map fun e => (makeSection e 64).length).sum + k) q ∧
          columns q 0 64 = (makeSection entries[j] 64)[k] ++ List.replicate (64 - (makeSection entries[j] 64)[k].length) ' ' ∧ NumberAt q 64 8 (2 * j + 1) := by
  have hsum : ((entries.map fun e => makeSection e 64).map List.length) = entries.map fun e => (makeSection e 64).length := by rw [List.map_map]; rfl
  have hG : ∀ d ∈ globalEntries fileName date, d.length + 1 ≤ 72 := by
    intro d h
    rcases global_short fileName date hd d h with rfl | h <;> omega
  refine ⟨igsHeader, writeGlobal fileName date, writeDirectory 0 1 ((entries.map fun e => makeSection e 64).map List.length),
    writeParameters 0 1 (entries.map fun e => makeSection e 64), _, rfl, rfl, ?_, ?_, ?_, ?_, ?_, ?_, ?_⟩
  · rw [directory_length]; simp
  · rw [parameters_length, hsum]
  · refine (section_lines _ 'S' ?_ (by decide)).2
    intro l hl
    simp only [List.mem_cons, List.not_mem_nil, or_false] at hl
    rcases hl with rfl | rfl | rfl | rfl <;> decide
  · refine (section_lines _ 'G' (C16_line_width _ 72 hG) ?_).2
    have := makeSection_length (globalEntries fileName date) 72
    have h24 : (globalEntries fileName date).length = 24 := rfl
    omega
  · refine igsLine _ 'T' 1 (setwLeft_length 72 _ ?_) (by norm_num)
    have h24 : (globalEntries fileName date).length = 24 := rfl
    have hg := makeSection_length (globalEntries fileName date) 72
    have l1 := dec_length (makeSection (globalEntries fileName date) 72).length 7 (by omega) (by norm_num)
    have l2 := dec_length (2 * ((entries.map fun e => makeSection e 64).map List.length).length) 7 (by simp; omega) (by norm_num)
    have l3 := dec_length ((entries.map fun e => makeSection e 64).map List.length).sum 7 (by rw [hsum]; omega) (by norm_num)
    simp only [List.length_append, setwRight_length 7 _ l1, setwRight_length 7 _ l2, setwRight_length 7 _ l3, setwRight_length 7 (dec 4) (by decide), List.length_singleton]
    norm_num
  · have h24 : (globalEntries fileName date).length = 24 := rfl
    have hg := makeSection_length (globalEntries fileName date) 72
    have := terminate_counts (makeSection (globalEntries fileName date) 72).length (2 * ((entries.map fun e => makeSection e 64).map List.length).length)
      ((entries.map fun e => makeSection e 64).map List.length).sum (by omega) (by simp; omega) (by rw [hsum]; omega)
    rw [directory_length, parameters_length]
    have e : (writeGlobal fileName date).length = (makeSection (globalEntries fileName date) 72).length := by simp [writeGlobal, writeSection]
    rw [e]
    exact this
  · intro j hj
    have hj' : j < ((entries.map fun e => makeSection e 64).map List.length).length := by simpa using hj
    obtain ⟨a, b, e1, e2, e3, e4, e5, e6, e7, e8⟩ := directory_lines ((entries.map fun e => makeSection e 64).map List.length) 0 1 j hj' (by rw [hsum]; omega) (by simp; omega)
    rw [Nat.zero_add] at e3 e4
    have htake : (((entries.map fun e => makeSection e 64).map List.length).take j).sum = ((entries.take j).map fun e => (makeSection e 64).length).sum := by
      rw [hsum, List.map_take]
    rw [htake] at e7
    have hget : ((entries.map fun e => makeSection e 64).map List.length)[j] = (makeSection entries[j] 64).length := by simp
    rw [hget] at e8
    refine ⟨a, b, e1, e2, e3, e4, e5, e6, e7, e8, ?_⟩
    intro k hk
    have hw : ∀ s ∈ entries.map (fun e => makeSection e 64), ∀ l ∈ s, l.length ≤ 64 := by
      intro s hs l hl
      obtain ⟨e, he', rfl⟩ := List.mem_map.1 hs
      exact C16_line_width e 64 (he e he') l hl
    obtain ⟨q, q1, q2, q3, q4⟩ := parameter_lines (entries.map fun e => makeSection e 64) 0 1 j k (makeSection entries[j] 64) (makeSection entries[j] 64)[k]
      (by rw [List.getElem?_map, List.getElem?_eq_getElem hj]; rfl) (List.getElem?_eq_getElem hk) hw (by rw [hsum]; omega) (by simp; omega)
    have htake' : (((entries.map fun e => makeSection e 64).take j).map List.length).sum = ((entries.take j).map fun e => (makeSection e 64).length).sum := by
      rw [← List.map_take, List.map_map]; rfl
    rw [htake'] at q1 q2
    rw [Nat.zero_add] at q4
    exact ⟨q, q1, q2, q3, q4⟩

/-- C81: a geometry written to an IGES file (with the knot vectors a correct writer produces, see `C16_write_violated`) and loaded from it is the same
geometry, if the conversion of numbers is exact, the file name does not have the letter `D` at position 72, and there are fewer than ten million parameter
lines. -/
theorem C81_roundtrip_partial (junk : Nat → K) (fmt : Tok K → List Char) (parse : List Char → Tok K) (fileName date : List Char) (ps : List (Patch K))
    (hne : ps ≠ []) (hps : ∀ p ∈ ps, BezierPatch p) (hw : ∀ p ∈ ps, ∀ i, i < p.px * p.py → p.data.getD (4 * i + 3) 0 ≠ 0)
    (hfmt : ∀ p ∈ ps, ∀ t ∈ igsEntries p (makeBezierKnotVector p.px) (makeBezierKnotVector p.py),
      parse (fmt t) = t ∧ parse (fmt t ++ [';']) = t ∧ (fmt t).length + 1 ≤ 64 ∧ ',' ∉ fmt t ∧ ' ' ∉ fmt t)
    (hf : fileName[72]? ≠ some 'D') (hd : date.length ≤ 71)
    (hn : 1 + (ps.map fun p => (makeSection ((igsEntries p (makeBezierKnotVector p.px) (makeBezierKnotVector p.py)).map fmt) 64).length).sum < 10 ^ 7) :
    loadGeometryFileIGS parse junk (writeIGSFile fileName date (ps.map fun p => (igsEntries p (makeBezierKnotVector p.px) (makeBezierKnotVector p.py)).map fmt)) = some ps := by
  set E : Patch K → List (Tok K) := fun p => igsEntries p (makeBezierKnotVector p.px) (makeBezierKnotVector p.py) with hE
  set secs := (ps.map fun p => (E p).map fmt).map fun e => makeSection e 64 with hsecs
  have hlen : secs.map List.length = ps.map fun p => (makeSection ((E p).map fmt) 64).length := by rw [hsecs, List.map_map, List.map_map]; rfl
  have hpos : ∀ l : List (List (List Char)), (∀ s ∈ l, s ≠ []) → l.length ≤ (l.map List.length).sum := by
    intro l
    induction l with
    | nil => simp
    | cons s l ih =>
      intro h
      have := ih fun s hs => h s (by simp [hs])
      have h0 : 0 < s.length := List.length_pos_of_ne_nil (h s (by simp))
      rw [List.length_cons, List.map_cons, List.sum_cons]; omega
  have hsne : ∀ s ∈ secs, s ≠ [] := by
    intro s hs
    obtain ⟨e, -, rfl⟩ := List.mem_map.1 hs
    exact makeSection_ne _ _
  have hwid : ∀ s ∈ secs, ∀ l ∈ s, l.length ≤ 64 := by
    intro s hs l hl
    obtain ⟨e, he, rfl⟩ := List.mem_map.1 hs
    obtain ⟨p, hp, rfl⟩ := List.mem_map.1 he
    refine C16_line_width _ 64 ?_ l hl
    intro d hd
    obtain ⟨t, ht, rfl⟩ := List.mem_map.1 hd
    exact (hfmt p hp t ht).2.2.1
  obtain ⟨s, ss, hss⟩ : ∃ s ss, secs = s :: ss := by
    cases h : secs with
    | nil => rw [hsecs] at h; simp at h; exact absurd h hne
    | cons s ss => exact ⟨s, ss, rfl⟩
  have hsmem : s ∈ secs := by rw [hss]; simp
  obtain ⟨row, rows, e1, e2⟩ := parameter_first s ss (hsne s hsmem) (hwid s hsmem)
  have hfile : writeIGSFile fileName date (ps.map fun p => (E p).map fmt) = igsHeader ++ (writeGlobal fileName date ++ (writeDirectory 0 1 (secs.map List.length) ++
      (row :: (rows ++ [terminateLine (makeSection (globalEntries fileName date) 72).length (2 * (secs.map List.length).length) (secs.map List.length).sum])))) := by
    have : writeIGSFile fileName date (ps.map fun p => (E p).map fmt) = igsHeader ++ writeGlobal fileName date ++ writeDirectory 0 1 (secs.map List.length) ++ writeParameters 0 1 secs ++
      [terminateLine (makeSection (globalEntries fileName date) 72).length (2 * (secs.map List.length).length) (secs.map List.length).sum] := rfl
    rw [this, hss, e1]
    simp only [List.append_assoc, List.cons_append]
  obtain ⟨h0, hh⟩ : ∃ h0 h1, igsHeader = h0 :: h1 := ⟨_, _, rfl⟩
  obtain ⟨h1, hh⟩ := hh
  have c0 := header_rows h0 (by rw [hh]; simp)
  have hcount : secs.length ≤ (secs.map List.length).sum := hpos secs hsne
  have hsum : 1 + (secs.map List.length).sum < 10 ^ 7 := by rw [hlen]; exact hn
  rw [hfile]
  unfold loadGeometryFileIGS
  have hhead : (igsHeader ++ (writeGlobal fileName date ++ (writeDirectory 0 1 (secs.map List.length) ++
      (row :: (rows ++ [terminateLine (makeSection (globalEntries fileName date) 72).length (2 * (secs.map List.length).length) (secs.map List.length).sum]))))).head? = some h0 := by
    rw [hh]; rfl
  rw [hhead]
  simp only [Option.bind_eq_bind, Option.bind_some, c0, if_true]
  rw [skip_append _ _ (fun r hr => ⟨'S', header_rows r hr, by decide⟩), skip_append _ _ (global_rows fileName date hd hf)]
  have hskip : ∀ r, skipToDirectory (writeDirectory 0 1 (secs.map List.length) ++ r) = some (writeDirectory 0 1 (secs.map List.length) ++ r) := by
    intro r
    rw [hss, List.map_cons, writeDirectory]
    have hD := directory_letter 0 1 s.length (by norm_num) (by rw [hss, List.map_cons, List.sum_cons] at hsum; omega)
    obtain ⟨u, v, huv⟩ : ∃ u v, directoryLines 0 1 s.length = [u, v] := ⟨_, _, rfl⟩
    rw [huv] at hD ⊢
    rw [List.cons_append, List.cons_append, skipToDirectory, hD u (by simp)]
    simp
  rw [hskip]
  simp only [Option.bind_some]
  rw [read_directory _ 0 1 row _ hsum (by rw [List.length_map]; omega) e2]
  simp only [Option.bind_some, List.map_map]
  have hnat : secs.map (Int.toNat ∘ Int.ofNat ∘ List.length) = secs.map List.length := by
    apply List.map_congr_left; intro a _; simp
  rw [hnat, ← List.cons_append, ← e1, ← hss]
  apply loadIGS_append
  rw [parameters_eq, hlen]
  have := sections_roundtrip junk fmt parse (fun i k => setwRight 8 (dec (1 + 2 * (0 + i))) ++ ('P' :: setwRight 7 (dec (1 + ((secs.take i).map List.length).sum + k)))) E ps 0
    (fun p _ h => by
      have := C16_entry_count p (makeBezierKnotVector p.px) (makeBezierKnotVector p.py)
      rw [show igsEntries p (makeBezierKnotVector p.px) (makeBezierKnotVector p.py) = [] from h, List.length_nil] at this; omega)
    (fun p hp => C16_decode_partial junk p (hps p hp) (hw p hp)) hfmt
  simp only [Nat.zero_add, List.map_map, Function.comp_def] at this ⊢
  rw [hsecs] at this ⊢
  simpa [List.map_map, Function.comp_def] using this

/-- C81 does not hold for long file names: the file name is written to a line of its own that may exceed the 72 columns, and the loader takes the character at
position 72 for the letter of the section.  If this is a `D`, the loader takes the line for the directory and stops with an exception, whatever the geometry
is (unless the name starts with a digit, a sign or white space). -/
theorem C81_name_violated (junk : Nat → K) (parse : List Char → Tok K) (c : Char) (name date : List Char) (entries : List (List (List Char)))
    (h1 : c.isDigit = false) (h2 : c ≠ '-') (h3 : c ≠ '+') (h4 : c.isWhitespace = false) (hf : (c :: name)[72]? = some 'D') :
    loadGeometryFileIGS parse junk (writeIGSFile (c :: name) date entries) = none := by
  have hl : 72 < (c :: name).length := (List.getElem?_eq_some_iff.1 hf).1
  obtain ⟨rest, hr⟩ := global_long (c :: name) date hl
  obtain ⟨g2, hg⟩ : ∃ rows, writeGlobal (c :: name) date = (setwLeft 72 "1H,,1H;,Bembel,".toList ++ ('G' :: setwRight 7 (dec 1))) ::
      (setwLeft 72 ((c :: name) ++ [',']) ++ ('G' :: setwRight 7 (dec 2))) :: rows := by
    unfold writeGlobal writeSection
    rw [hr, List.length_cons, List.length_cons, List.range_succ_eq_map, List.map_cons, List.range_succ_eq_map, List.map_cons, List.map_cons]
    exact ⟨_, rfl⟩
  have hD : column72 (setwLeft 72 ((c :: name) ++ [',']) ++ ('G' :: setwRight 7 (dec 2))) = some 'D' := by
    rw [section_row_long _ _ (by rw [List.length_append]; omega), List.getElem?_append_left hl, hf]
  have hG : column72 (setwLeft 72 "1H,,1H;,Bembel,".toList ++ ('G' :: setwRight 7 (dec 1))) = some 'G' := section_row _ _ _ (by decide)
  obtain ⟨h0, hh⟩ : ∃ h0 h1, igsHeader = h0 :: h1 := ⟨_, _, rfl⟩
  obtain ⟨hr1, hh⟩ := hh
  have c0 := header_rows h0 (by rw [hh]; simp)
  have hfile : ∃ r1 r2, writeIGSFile (c :: name) date entries = igsHeader ++ ((setwLeft 72 "1H,,1H;,Bembel,".toList ++ ('G' :: setwRight 7 (dec 1))) ::
      (setwLeft 72 ((c :: name) ++ [',']) ++ ('G' :: setwRight 7 (dec 2))) :: (r1 :: r2)) := by
    have hne : ∀ l : List (List Char), ∀ t, ∃ r1 r2, l ++ [t] = r1 :: r2 := by
      intro l t; cases l with
      | nil => exact ⟨_, _, rfl⟩
      | cons a l => exact ⟨_, _, rfl⟩
    unfold writeIGSFile
    rw [hg]
    simp only [List.append_assoc, List.cons_append]
    rw [← List.append_assoc, ← List.append_assoc]
    obtain ⟨r1, r2, e⟩ := hne ((g2 ++ writeDirectory 0 1 ((entries.map fun e => makeSection e 64).map List.length)) ++ writeParameters 0 1 (entries.map fun e => makeSection e 64))
      (terminateLine (makeSection (globalEntries (c :: name) date) 72).length (2 * ((entries.map fun e => makeSection e 64).map List.length).length)
        ((entries.map fun e => makeSection e 64).map List.length).sum)
    exact ⟨r1, r2, by rw [← e]⟩
  obtain ⟨r1, r2, hfile⟩ := hfile
  rw [hfile]
  unfold loadGeometryFileIGS
  have hhead : ∀ r, (igsHeader ++ r).head? = some h0 := by intro r; rw [hh]; rfl
  rw [hhead]
  simp only [Option.bind_eq_bind, Option.bind_some, c0, if_true]
  rw [skip_append _ _ (fun r hr => ⟨'S', header_rows r hr, by decide⟩), skipToDirectory, hG]
  simp only [Option.bind_eq_bind, Option.bind_some, if_neg (show 'G' ≠ 'D' by decide)]
  rw [skipToDirectory, hD]
  simp only [Option.bind_eq_bind, Option.bind_some, if_true]
  rw [readDirectory, hD]
  simp only [Option.bind_eq_bind, Option.bind_some, if_neg (show 'D' ≠ 'P' by decide)]
  have hword : (splitBlank [] (setwLeft 72 ((c :: name) ++ [',']) ++ ('G' :: setwRight 7 (dec 2)))).mapM stoiText = none := by
    unfold setwLeft
    rw [List.cons_append, List.cons_append, List.cons_append, splitBlank, if_neg (by simp [h4])]
    obtain ⟨w, ws, e⟩ := split_first (name ++ [','] ++ List.replicate (72 - (c :: (name ++ [','])).length) ' ' ++ ('G' :: setwRight 7 (dec 2))) ([] ++ [c]) (by simp)
    rw [e, List.mapM_cons, List.nil_append, List.singleton_append, stoi_word c w h1 h2 h3]
    rfl
  rw [hword]
  rfl

/-- C81 does not hold for geometries without patches: the file that is written has no directory section, and the loader runs into the end of the file. -/
theorem C81_empty_violated (junk : Nat → K) (parse : List Char → Tok K) (fileName date : List Char) (hf : fileName[72]? ≠ some 'D') (hd : date.length ≤ 71) :
    loadGeometryFileIGS parse junk (writeIGSFile fileName date []) = none := by
  obtain ⟨h0, hh⟩ : ∃ h0 h1, igsHeader = h0 :: h1 := ⟨_, _, rfl⟩
  obtain ⟨hr1, hh⟩ := hh
  have c0 := header_rows h0 (by rw [hh]; simp)
  have hfile : writeIGSFile fileName date [] = igsHeader ++ (writeGlobal fileName date ++ [terminateLine (makeSection (globalEntries fileName date) 72).length 0 0]) := by
    unfold writeIGSFile
    simp [writeDirectory, writeParameters]
  have h24 : (globalEntries fileName date).length = 24 := rfl
  have hg := makeSection_length (globalEntries fileName date) 72
  have l1 := dec_length (makeSection (globalEntries fileName date) 72).length 7 (by omega) (by norm_num)
  have hT : column72 (terminateLine (makeSection (globalEntries fileName date) 72).length 0 0) = some 'T' := by
    unfold terminateLine
    refine section_row _ 'T' 1 ?_
    simp only [List.length_append, setwRight_length 7 _ l1, setwRight_length 7 (dec 0) (by decide), setwRight_length 7 (dec 4) (by decide), List.length_singleton]
    norm_num
  rw [hfile]
  unfold loadGeometryFileIGS
  have hhead : ∀ r, (igsHeader ++ r).head? = some h0 := by intro r; rw [hh]; rfl
  rw [hhead]
  simp only [Option.bind_eq_bind, Option.bind_some, c0, if_true]
  rw [skip_append _ _ (fun r hr => ⟨'S', header_rows r hr, by decide⟩), skip_append _ _ (global_rows fileName date hd hf), skipToDirectory, hT]
  simp only [Option.bind_eq_bind, Option.bind_some, if_neg (show 'T' ≠ 'D' by decide)]
  rfl

/-! ### the hypotheses can be met -/

/-- A file with two patches whose entries are `1,2` and `3`: the line numbers are small, the entries fit. -/
example : (1 + ([["1".toList, "2".toList], ["3".toList]].map fun e => (makeSection e 64).length).sum < 10 ^ 7) ∧
    (∀ e ∈ [["1".toList, "2".toList], ["3".toList]], ∀ w ∈ e, w.length + 1 ≤ 64) ∧ ("sphere.igs".toList)[72]? ≠ some 'D' := by decide

/-- A path with 77 characters for which the export cannot be read. -/
example : ("/home/user/simulations/electromagnetics/bembel/geometries/exports/2024/NURBS/Dipole.igs".toList).drop 72 ≠ [] ∧
    ('/' :: (List.replicate 71 'x' ++ "Dipole.igs".toList))[72]? = some 'D' ∧ ('/').isDigit = false ∧ ('/').isWhitespace = false := by decide

end Bembel.Props
