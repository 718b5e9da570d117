import Verif.Spec.TextIO
import Verif.Lemmas.Text
import Verif.Props.VTKExport
/-!
# Property C72: text output of matrices
-/

namespace Bembel.Props
open Bembel.Text Bembel.TextIO Bembel.Matlab

variable {fmt : ℝ → Str} {read : Str → ℝ} {D : Set ℝ}

theorem splitOn_append (a b : Str) : (a ++ '\n' :: b).splitOn '\n' = a.splitOn '\n' ++ b.splitOn '\n' := by
  unfold List.splitOn
  exact splitOnP_append _ a b '\n' (by simp)

theorem splitOn_line (a : Str) (h : '\n' ∉ a) : a.splitOn '\n' = [a] := by
  unfold List.splitOn
  exact splitOnP_none _ a fun c hc => by
    have : c ≠ '\n' := fun e => h (e ▸ hc)
    simpa using this

theorem step_nil (st : State) : step read st [] = st := by
  unfold step
  cases h : st.pending with
  | none => simp
  | some x => simp

theorem run_append (st : State) (a b : Str) : run read st (a ++ '\n' :: b) = run read (run read st a) b := by
  unfold run
  rw [splitOn_append, List.foldl_append]

theorem run_line (st : State) (l rest : Str) (h : '\n' ∉ l) : run read st (l ++ '\n' :: rest) = run read (step read st l) rest := by
  rw [run_append]
  congr 1
  unfold run
  rw [splitOn_line l h]
  rfl

theorem run_nil (st : State) : run read st [] = st := by
  unfold run
  rw [splitOn_line [] (by simp)]
  exact step_nil st

theorem token_no_newline {w : Str} (h : Token w) : '\n' ∉ w := fun hc => by
  have := (h.2 _ hc).1
  revert this; decide

/-- The text of a row. -/
theorem row_words (n : Nat) (f : Nat → ℝ) (h : ∀ j < n, Token (fmt (f j))) :
    words ((List.range n).flatMap fun j => fmt (f j) ++ " \t ".toList) = (List.range n).map fun j => fmt (f j) := by
  have gen : ∀ L : List Nat, (∀ j ∈ L, Token (fmt (f j))) → words (L.flatMap fun j => fmt (f j) ++ " \t ".toList) = L.map fun j => fmt (f j) := by
    intro L
    induction L with
    | nil => simp
    | cons a L ih =>
      intro hL
      rw [List.flatMap_cons, List.append_assoc]
      rw [show " \t ".toList = [' ', '\t', ' '] from rfl, List.cons_append, words_sep _ _ _ (by decide), List.cons_append, words_space _ _ (by decide),
        List.cons_append, words_space _ _ (by decide), List.nil_append, words_token (hL a (by simp))]
      have := ih fun j hj => hL j (by simp [hj])
      rw [show " \t ".toList = [' ', '\t', ' '] from rfl] at this
      rw [this]
      rfl
  exact gen _ fun j hj => h j (List.mem_range.1 hj)

theorem row_no_newline (n : Nat) (f : Nat → ℝ) (h : ∀ j < n, Token (fmt (f j))) : '\n' ∉ (List.range n).flatMap fun j => fmt (f j) ++ " \t ".toList := by
  intro hc
  obtain ⟨j, hj, hc⟩ := List.mem_flatMap.1 hc
  rcases List.mem_append.1 hc with hc | hc
  · exact token_no_newline (h j (List.mem_range.1 hj)) hc
  · revert hc; decide

/-- C72: `print2ascii` replaces the content of the file; every line contains the entries of a row, other files are not changed. -/
theorem C72_ascii (hf : ∀ x ∈ D, Token (fmt x)) (fs : Files) (file : Str) (m : EMat ℝ) (hm : ∀ i < m.rows, ∀ j < m.cols, m.at' i j ∈ D) :
    ∃ fs', print2ascii fmt fs file m = (fs', 0) ∧ (∀ n, n ≠ file → fs' n = fs n) ∧
      ((fs' file).splitOn '\n').map words = ((List.range m.rows).map fun i => (List.range m.cols).map fun j => fmt (m.at' i j)) ++ [[]] := by
  refine ⟨_, rfl, fun n hn => by simp [write, openOut, hn], ?_⟩
  have e : write (openOut fs file) file (matrixText fmt m) file = matrixText fmt m := by simp [write, openOut]
  rw [e]
  unfold matrixText
  have gen : ∀ L : List Nat, (∀ i ∈ L, i < m.rows) → ((L.flatMap fun i => ((List.range m.cols).flatMap fun j => fmt (m.at' i j) ++ " \t ".toList) ++
      "\n".toList).splitOn '\n').map words = (L.map fun i => (List.range m.cols).map fun j => fmt (m.at' i j)) ++ [[]] := by
    intro L
    induction L with
    | nil => intro _; simp [splitOn_line]
    | cons a L ih =>
      intro hL
      have ha := hL a (by simp)
      rw [List.flatMap_cons, show "\n".toList = ['\n'] from rfl, List.append_assoc, List.singleton_append, splitOn_append,
        splitOn_line _ (row_no_newline _ _ fun j hj => hf _ (hm a ha j hj)), List.map_append, List.map_singleton,
        row_words _ _ fun j hj => hf _ (hm a ha j hj)]
      have := ih fun i hi => hL i (by simp [hi])
      rw [show "\n".toList = ['\n'] from rfl] at this
      rw [this]
      rfl
  exact gen _ fun i hi => List.mem_range.1 hi

theorem run_matrixText (hf : NumberFormat fmt read D) (env : Str → Option Value) (name : Str) (R : List (List ℝ)) (m : EMat ℝ)
    (hc : m.rows = 0 ∨ 0 < m.cols) (hm : ∀ i < m.rows, ∀ j < m.cols, m.at' i j ∈ D) (rest : Str) :
    run read ⟨env, some (name, R)⟩ (matrixText fmt m ++ rest) = run read ⟨env, some (name, R ++ rowsOf m)⟩ rest := by
  unfold matrixText rowsOf
  have gen : ∀ (L : List Nat) (R : List (List ℝ)), (∀ i ∈ L, i < m.rows) → run read ⟨env, some (name, R)⟩ ((L.flatMap fun i =>
      ((List.range m.cols).flatMap fun j => fmt (m.at' i j) ++ " \t ".toList) ++ "\n".toList) ++ rest) =
      run read ⟨env, some (name, R ++ L.map fun i => (List.range m.cols).map (m.at' i))⟩ rest := by
    intro L
    induction L with
    | nil => intro R _; simp
    | cons a L ih =>
      intro R hL
      have ha := hL a (by simp)
      have hcol : 0 < m.cols := by omega
      have ht : ∀ j < m.cols, Token (fmt (m.at' a j)) := fun j hj => hf.token _ (hm a ha j hj)
      rw [List.flatMap_cons, show "\n".toList = ['\n'] from rfl, List.append_assoc, List.append_assoc, List.singleton_append,
        run_line _ _ _ (row_no_newline _ _ ht)]
      have hs : step read ⟨env, some (name, R)⟩ ((List.range m.cols).flatMap fun j => fmt (m.at' a j) ++ " \t ".toList) =
          ⟨env, some (name, R ++ [(List.range m.cols).map (m.at' a)])⟩ := by
        unfold step
        simp only [row_words _ _ ht]
        rw [if_neg (by simp; omega), if_neg ?_]
        · rw [List.map_map]
          have : (List.range m.cols).map (read ∘ fun j => fmt (m.at' a j)) = (List.range m.cols).map (m.at' a) :=
            List.map_congr_left fun j hj => hf.exact _ (hm a ha j (List.mem_range.1 hj))
          rw [this]
        · intro h
          have h0 : fmt (m.at' a 0) ∈ (List.range m.cols).map fun j => fmt (m.at' a j) := List.mem_map.2 ⟨0, List.mem_range.2 hcol, rfl⟩
          rw [h, List.mem_singleton] at h0
          have := hf.bracket _ (hm a ha 0 hcol)
          rw [h0] at this
          revert this; decide
      rw [hs]
      have := ih (R ++ [(List.range m.cols).map (m.at' a)]) fun i hi => hL i (by simp [hi])
      rw [show "\n".toList = ['\n'] from rfl] at this
      rw [this, List.append_assoc]
      rfl
  exact gen _ R fun i hi => List.mem_range.1 hi

/-- The text of a variable. -/
def varText (fmt : ℝ → Str) (name : Str) (m : EMat ℝ) : Str :=
  (name ++ "=[".toList ++ "\n".toList) ++ matrixText fmt m ++ ("];".toList ++ "\n".toList)

theorem ident_char {w : Str} (h : Ident w) {c : Char} (hc : c ∈ w) : c.isWhitespace = false ∧ c ≠ ',' := by
  have := h.2 c hc
  refine ⟨?_, fun e => by rw [e] at this; revert this; decide⟩
  by_contra hw
  rw [Bool.not_eq_false] at hw
  unfold Char.isWhitespace at hw
  simp only [Bool.or_eq_true, decide_eq_true_eq] at hw
  rcases hw with ((rfl | rfl) | rfl) | rfl <;> (revert this; decide)

/-- A text without white space is one word. -/
theorem words_solid {w : Str} (h0 : w ≠ []) (h : ∀ c ∈ w, c.isWhitespace = false) : words w = [w] := by
  unfold words
  rw [splitOnP_none _ _ h]
  simp [h0]

theorem no_newline_solid {w : Str} (h : ∀ c ∈ w, c.isWhitespace = false) : '\n' ∉ w := fun hc => by
  have := h _ hc
  revert this; decide

theorem run_varText (hf : NumberFormat fmt read D) (env : Str → Option Value) (name : Str) (hn : Ident name) (m : EMat ℝ)
    (hc : m.rows = 0 ∨ 0 < m.cols) (hm : ∀ i < m.rows, ∀ j < m.cols, m.at' i j ∈ D) (rest : Str) :
    run read ⟨env, none⟩ (varText fmt name m ++ rest) = run read ⟨assign env name (.full (rowsOf m)), none⟩ rest := by
  unfold varText
  have hsolid : ∀ c ∈ name ++ "=[".toList, c.isWhitespace = false := by
    intro c hc
    rcases List.mem_append.1 hc with hc | hc
    · exact (ident_char hn hc).1
    · have : ∀ c ∈ "=[".toList, c.isWhitespace = false := by decide
      exact this c hc
  rw [show "\n".toList = ['\n'] from rfl, List.append_assoc, List.append_assoc, List.append_assoc, List.append_assoc, List.singleton_append,
    ← List.append_assoc, run_line _ _ _ (no_newline_solid hsolid)]
  have hs : step read ⟨env, none⟩ (name ++ "=[".toList) = ⟨env, some (name, [])⟩ := by
    unfold step
    simp only [words_solid (by simp) hsolid]
    rw [if_pos (by simp), show (name ++ "=[".toList).length - 2 = name.length by simp, List.take_left]
  rw [hs, run_matrixText hf env name [] m hc hm, List.nil_append, List.append_assoc, List.singleton_append, run_line _ _ _ (by decide)]
  congr 1

theorem print2m_text (fs : Files) (file name : Str) (m : EMat ℝ) (mode : Str) (hmode : mode = "w".toList ∨ mode = "a".toList) :
    print2m fmt fs file name m mode = (write (if mode = "w".toList then openOut fs file else fs) file (varText fmt name m), 0) := by
  have hw : ∀ (fs : Files) a b, write (write fs file a) file b = write fs file (a ++ b) := by
    intro fs a b
    funext n
    unfold write
    split <;> simp
  unfold print2m openApp varText
  rcases hmode with rfl | rfl
  · simp only [if_true, hw]
  · simp only [show ("a".toList = "w".toList) = False by decide, if_false, if_true, hw]

/-- Files made of complete lines. -/
def Ended (s : Str) : Prop := s = [] ∨ ∃ t, s = t ++ ['\n']

theorem run_ended {s : Str} (h : Ended s) (st : State) (rest : Str) : run read st (s ++ rest) = run read (run read st s) rest := by
  rcases h with rfl | ⟨t, rfl⟩
  · rw [List.nil_append, run_nil]
  · rw [List.append_assoc, List.singleton_append, run_append, run_append, run_nil]

theorem ended_append {s t : Str} (h : Ended t) (ht : t ≠ []) : Ended (s ++ t) := by
  rcases h with rfl | ⟨u, rfl⟩
  · exact absurd rfl ht
  · exact Or.inr ⟨s ++ u, by rw [List.append_assoc]⟩

theorem varText_ended (name : Str) (m : EMat ℝ) : Ended (varText fmt name m) ∧ varText fmt name m ≠ [] := by
  unfold varText
  refine ⟨Or.inr ⟨name ++ "=[".toList ++ "\n".toList ++ matrixText fmt m ++ "];".toList, ?_⟩, by simp⟩
  simp [List.append_assoc]

/-- The line that builds the sparse matrix. -/
def sparseLine (name : Str) : Str :=
  name ++ " = sparse(".toList ++ ("rows_".toList ++ name) ++ ",".toList ++ ("cols_".toList ++ name) ++ ",".toList ++ ("values_".toList ++ name) ++ ");".toList

theorem splitOn_comma (a b : Str) : (a ++ ',' :: b).splitOn ',' = a.splitOn ',' ++ b.splitOn ',' := by
  unfold List.splitOn
  exact splitOnP_append _ a b ',' (by simp)

theorem splitOn_field (a : Str) (h : ',' ∉ a) : a.splitOn ',' = [a] := by
  unfold List.splitOn
  exact splitOnP_none _ a fun c hc => by
    have : c ≠ ',' := fun e => h (e ▸ hc)
    simpa using this

theorem sparseArgs_eq {name : Str} (hn : Ident name) :
    sparseArgs ("sparse(".toList ++ (("rows_".toList ++ name) ++ ',' :: (("cols_".toList ++ name) ++ ',' :: ("values_".toList ++ name))) ++ ");".toList) =
      some ("rows_".toList ++ name, "cols_".toList ++ name, "values_".toList ++ name) := by
  have hc : ∀ w : Str, ',' ∉ w → ',' ∉ w ++ name := fun w hw h => by
    rcases List.mem_append.1 h with h | h
    · exact hw h
    · exact (ident_char hn h).2 rfl
  generalize hb : (("rows_".toList ++ name) ++ ',' :: (("cols_".toList ++ name) ++ ',' :: ("values_".toList ++ name))) = b
  have hs : b.splitOn ',' = ["rows_".toList ++ name, "cols_".toList ++ name, "values_".toList ++ name] := by
    rw [← hb, splitOn_comma, splitOn_comma, splitOn_field _ (hc _ (by decide)), splitOn_field _ (hc _ (by decide)), splitOn_field _ (hc _ (by decide))]
    rfl
  unfold sparseArgs
  have hl : ("sparse(".toList ++ b ++ ");".toList).length = b.length + 9 := by simp
  rw [if_pos]
  · have : (("sparse(".toList ++ b ++ ");".toList).drop 7).take (("sparse(".toList ++ b ++ ");".toList).length - 9) = b := by
      rw [hl, List.append_assoc, List.drop_left' (by rfl), Nat.add_sub_cancel, List.take_left]
    rw [this, hs]
  · constructor
    · rw [List.append_assoc, List.take_left' (by rfl)]
    · rw [hl, List.drop_left']
      simp

theorem step_sparse {name : Str} (hn : Ident name) (env : Str → Option Value) {I J V : List (List ℝ)}
    (hI : env ("rows_".toList ++ name) = some (.full I)) (hJ : env ("cols_".toList ++ name) = some (.full J))
    (hV : env ("values_".toList ++ name) = some (.full V)) :
    step read ⟨env, none⟩ (sparseLine name) = ⟨assign env name (mkSparse I.flatten J.flatten V.flatten), none⟩ := by
  have hid : ∀ w : Str, (∀ c ∈ w, c.isWhitespace = false) → ∀ c ∈ w ++ name, c.isWhitespace = false := fun w hw c h => by
    rcases List.mem_append.1 h with h | h
    · exact hw c h
    · exact (ident_char hn h).1
  have hcm : ∀ a b : Str, (∀ c ∈ a, c.isWhitespace = false) → (∀ c ∈ b, c.isWhitespace = false) → ∀ c ∈ a ++ b, c.isWhitespace = false := by
    intro a b ha hb c h
    rcases List.mem_append.1 h with h | h
    · exact ha c h
    · exact hb c h
  have hcc : ∀ b : Str, (∀ c ∈ b, c.isWhitespace = false) → ∀ c ∈ ',' :: b, c.isWhitespace = false := by
    intro b hb c h
    rcases List.mem_cons.1 h with rfl | h
    · decide
    · exact hb c h
  have hw : words (sparseLine name) = [name, "=".toList,
      "sparse(".toList ++ (("rows_".toList ++ name) ++ ',' :: (("cols_".toList ++ name) ++ ',' :: ("values_".toList ++ name))) ++ ");".toList] := by
    have e : sparseLine name = name ++ ' ' :: ("=".toList ++ ' ' ::
        ("sparse(".toList ++ (("rows_".toList ++ name) ++ ',' :: (("cols_".toList ++ name) ++ ',' :: ("values_".toList ++ name))) ++ ");".toList)) := by
      simp [sparseLine, List.append_assoc]
    rw [e, words_sep _ _ _ (by decide), words_sep _ _ _ (by decide), words_solid hn.1 fun c hc => (ident_char hn hc).1,
      words_solid (by decide) (by decide), words_solid (by simp) ?_]
    · rfl
    · exact hcm _ _ (hcm _ _ (by decide) (hcm _ _ (hid _ (by decide)) (hcc _ (hcm _ _ (hid _ (by decide)) (hcc _ (hid _ (by decide))))))) (by decide)
  unfold step
  simp only [hw, sparseArgs_eq hn, show "=".toList = ['='] from rfl, hI, hJ, hV]

theorem rowsOf_column (l : List ℝ) : rowsOf (column l) = l.map fun x => [x] := by
  unfold rowsOf column
  apply List.ext_getElem
  · simp
  · intro i h1 h2
    have : i < l.length := by simpa using h1
    simp [this]

theorem flatten_singletons (l : List ℝ) : (l.map fun x => [x]).flatten = l := by
  induction l with
  | nil => rfl
  | cons a l ih => rw [List.map_cons, List.flatten_cons, ih]; rfl

theorem entries_eq (s : Sparse) : (s.columns.zipIdx.flatMap fun c => c.1.map fun e => (e.1 + 1, c.2 + 1, e.2)) =
    s.stored.map fun e => (e.1 + 1, e.2.1 + 1, e.2.2) := by
  unfold Sparse.stored
  rw [List.map_flatMap]
  congr 1
  funext c
  rw [List.map_map]
  rfl

theorem sum_indicator (l : List (Nat × ℝ)) (r : Nat) (p : Prop) [Decidable p] : (l.map fun e => if e.1 = r ∧ p then e.2 else 0).sum =
    if p then (l.map fun e => if e.1 = r then e.2 else 0).sum else 0 := by
  by_cases h : p
  · simp [h]
  · simp [h]

theorem stored_sum (cols : List (List (Nat × ℝ))) (r c : Nat) : ∀ k : Nat,
    (((cols.zipIdx k).flatMap fun x => x.1.map fun e => (e.1, x.2, e.2)).map fun e : Nat × Nat × ℝ => if e.1 = r ∧ e.2.1 = c then e.2.2 else 0).sum =
      if k ≤ c then ((cols.getD (c - k) []).map fun e => if e.1 = r then e.2 else 0).sum else 0 := by
  induction cols with
  | nil => intro k; simp
  | cons a cols ih =>
    intro k
    rw [List.zipIdx_cons, List.flatMap_cons, List.map_append, List.sum_append, ih (k + 1), List.map_map]
    have e : ((fun e : Nat × Nat × ℝ => if e.1 = r ∧ e.2.1 = c then e.2.2 else 0) ∘ fun e : Nat × ℝ => (e.1, k, e.2)) =
        fun e => if e.1 = r ∧ k = c then e.2 else 0 := rfl
    rw [e, sum_indicator]
    by_cases h : k = c
    · subst h
      simp
    · by_cases h2 : k ≤ c
      · have h3 : k + 1 ≤ c := by omega
        have h4 : c - k = (c - (k + 1)) + 1 := by omega
        rw [if_neg h, if_pos h2, if_pos h3, zero_add, h4, List.getD_cons_succ]
      · have h3 : ¬ k + 1 ≤ c := by omega
        rw [if_neg h, if_neg h2, if_neg h3, zero_add]

theorem mkSparse_stored (s : Sparse) :
    mkSparse (s.stored.map fun e => ((e.1 + 1 : Nat) : ℝ)) (s.stored.map fun e => ((e.2.1 + 1 : Nat) : ℝ)) (s.stored.map fun e => e.2.2) =
      .sparse s.usedRows s.usedCols s.entry := by
  unfold mkSparse
  congr 1
  · unfold Sparse.usedRows
    rw [List.map_map]
    congr 2
    funext e
    exact Nat.floor_natCast _
  · unfold Sparse.usedCols
    rw [List.map_map]
    congr 2
    funext e
    exact Nat.floor_natCast _
  · funext r c
    have hz : ∀ l : List (Nat × Nat × ℝ), (l.map fun e => ((e.1 + 1 : Nat) : ℝ)).zip ((l.map fun e => ((e.2.1 + 1 : Nat) : ℝ)).zip (l.map fun e => e.2.2)) =
        l.map fun e => (((e.1 + 1 : Nat) : ℝ), ((e.2.1 + 1 : Nat) : ℝ), e.2.2) := by
      intro l
      induction l with
      | nil => rfl
      | cons a l ih => simp only [List.map_cons, List.zip_cons_cons, ih]
    rw [hz, List.map_map]
    have e : ((fun x : ℝ × ℝ × ℝ => if x.1 = ((r + 1 : Nat) : ℝ) ∧ x.2.1 = ((c + 1 : Nat) : ℝ) then x.2.2 else 0) ∘
        fun e : Nat × Nat × ℝ => (((e.1 + 1 : Nat) : ℝ), ((e.2.1 + 1 : Nat) : ℝ), e.2.2)) = fun e => if e.1 = r ∧ e.2.1 = c then e.2.2 else 0 := by
      funext e
      simp only [Function.comp, Nat.cast_inj, Nat.add_right_cancel_iff]
    rw [e]
    have := stored_sum s.columns r c 0
    rw [if_pos (Nat.zero_le _), Nat.sub_zero] at this
    exact this

/-- A file that is complete and whose variables are `env`. -/
def Script (read : Str → ℝ) (s : Str) (env : Str → Option Value) : Prop := Ended s ∧ run read ⟨fun _ => none, none⟩ s = ⟨env, none⟩

theorem script_var (hf : NumberFormat fmt read D) {s : Str} {env : Str → Option Value} (h : Script read s env) {name : Str} (hn : Ident name) (m : EMat ℝ)
    (hc : m.rows = 0 ∨ 0 < m.cols) (hm : ∀ i < m.rows, ∀ j < m.cols, m.at' i j ∈ D) :
    Script read (s ++ varText fmt name m) (assign env name (.full (rowsOf m))) := by
  obtain ⟨h1, h2⟩ := varText_ended (fmt := fmt) name m
  refine ⟨ended_append h1 h2, ?_⟩
  rw [run_ended h.1, h.2]
  have := run_varText hf env name hn m hc hm []
  rw [List.append_nil, run_nil] at this
  exact this

theorem script_empty : Script read [] fun _ => none := ⟨Or.inl rfl, run_nil _⟩

theorem print2m_script (hf : NumberFormat fmt read D) {fs : Files} {file : Str} {env : Str → Option Value} (h : Script read (fs file) env) {name : Str}
    (hn : Ident name) (m : EMat ℝ) {mode : Str} (hmode : mode = "w".toList ∨ mode = "a".toList) (hc : m.rows = 0 ∨ 0 < m.cols)
    (hm : ∀ i < m.rows, ∀ j < m.cols, m.at' i j ∈ D) :
    (print2m fmt fs file name m mode).2 = 0 ∧ (∀ n, n ≠ file → (print2m fmt fs file name m mode).1 n = fs n) ∧
      Script read ((print2m fmt fs file name m mode).1 file) (assign (if mode = "w".toList then fun _ => none else env) name (.full (rowsOf m))) := by
  rw [print2m_text fs file name m mode hmode]
  refine ⟨rfl, fun n hn' => ?_, ?_⟩
  · simp only [write, if_neg hn']
    split
    · simp [openOut, hn']
    · rfl
  · simp only [write, if_true]
    split
    · have := script_var hf (script_empty (read := read)) hn m hc hm
      simpa [openOut] using this
    · exact script_var hf h hn m hc hm

theorem ident_prefix {w name : Str} (hn : Ident name) (hw : ∀ c ∈ w, (c.isAlphanum || c == '_') = true) : Ident (w ++ name) := by
  refine ⟨by simp [hn.1], fun c hc => ?_⟩
  rcases List.mem_append.1 hc with hc | hc
  · exact hw c hc
  · exact hn.2 c hc

theorem column_ok (l : List ℝ) (h : ∀ x ∈ l, x ∈ D) : ((column l).rows = 0 ∨ 0 < (column l).cols) ∧
    ∀ i < (column l).rows, ∀ j < (column l).cols, (column l).at' i j ∈ D := by
  refine ⟨Or.inr Nat.one_pos, fun i hi j _ => ?_⟩
  have hi : i < l.length := hi
  show l.getD i 0 ∈ D
  rw [List.getD_eq_getElem?_getD, List.getElem?_eq_getElem hi]
  exact h _ (List.getElem_mem hi)

theorem stored_mem {s : Sparse} {e : Nat × Nat × ℝ} (h : e ∈ s.stored) : ∃ c ∈ s.columns, (e.1, e.2.2) ∈ c := by
  unfold Sparse.stored at h
  obtain ⟨c, hc, he⟩ := List.mem_flatMap.1 h
  obtain ⟨x, hx, rfl⟩ := List.mem_map.1 he
  exact ⟨c.1, (List.fst_mem_of_mem_zipIdx hc), hx⟩

theorem assign_self (env : Str → Option Value) (n : Str) (v : Value) : assign env n v n = some v := if_pos rfl

theorem assign_other (env : Str → Option Value) {n m : Str} (v : Value) (h : n ≠ m) : assign env m v n = env n := if_neg h

theorem step_sparse3 {name : Str} (hn : Ident name) (env : Str → Option Value) {I J V : List (List ℝ)}
    (e1 : "rows_".toList ++ name ≠ "cols_".toList ++ name) (e2 : "rows_".toList ++ name ≠ "values_".toList ++ name)
    (e3 : "cols_".toList ++ name ≠ "values_".toList ++ name) :
    step read ⟨assign (assign (assign env ("rows_".toList ++ name) (.full I)) ("cols_".toList ++ name) (.full J)) ("values_".toList ++ name) (.full V), none⟩
        (sparseLine name) =
      ⟨assign (assign (assign (assign env ("rows_".toList ++ name) (.full I)) ("cols_".toList ++ name) (.full J)) ("values_".toList ++ name) (.full V)) name
        (mkSparse I.flatten J.flatten V.flatten), none⟩ := by
  generalize hE : assign (assign (assign env ("rows_".toList ++ name) (.full I)) ("cols_".toList ++ name) (.full J)) ("values_".toList ++ name) (.full V) = E
  apply step_sparse hn E
  · rw [← hE, assign_other _ _ e2, assign_other _ _ e1, assign_self]
  · rw [← hE, assign_other _ _ e3, assign_self]
  · rw [← hE, assign_self]

theorem print2mSparse_script (hf : NumberFormat fmt read D) {fs : Files} {file : Str} {env : Str → Option Value} (h : Script read (fs file) env) {name : Str}
    (hn : Ident name) (s : Sparse) {mode : Str} (hmode : mode = "w".toList ∨ mode = "a".toList) (hs : ∀ c ∈ s.columns, ∀ e ∈ c, e.2 ∈ D) :
    (print2mSparse fmt fs file name s mode).2 = 0 ∧ (∀ n, n ≠ file → (print2mSparse fmt fs file name s mode).1 n = fs n) ∧
      Script read ((print2mSparse fmt fs file name s mode).1 file) (effect env (.sparse name s mode)) := by
  have hr : Ident ("rows_".toList ++ name) := ident_prefix hn (by decide)
  have hcn : Ident ("cols_".toList ++ name) := ident_prefix hn (by decide)
  have hv : Ident ("values_".toList ++ name) := ident_prefix hn (by decide)
  have wa : "a".toList = "w".toList ∨ "a".toList = "a".toList := Or.inr rfl
  have ne : ¬ ("a".toList = "w".toList) := by decide
  obtain ⟨r1, r2⟩ := column_ok (D := D) (s.stored.map fun e => ((e.1 + 1 : Nat) : ℝ)) fun x hx => by
    obtain ⟨e, _, rfl⟩ := List.mem_map.1 hx; exact hf.nat _
  obtain ⟨c1, c2⟩ := column_ok (D := D) (s.stored.map fun e => ((e.2.1 + 1 : Nat) : ℝ)) fun x hx => by
    obtain ⟨e, _, rfl⟩ := List.mem_map.1 hx; exact hf.nat _
  obtain ⟨v1, v2⟩ := column_ok (D := D) (s.stored.map fun e => e.2.2) fun x hx => by
    obtain ⟨e, he, rfl⟩ := List.mem_map.1 hx
    obtain ⟨c, hc, hx⟩ := stored_mem he
    exact hs c hc (e.1, e.2.2) hx
  obtain ⟨_, a2, a3⟩ := print2m_script hf h hr _ hmode r1 r2
  obtain ⟨_, b2, b3⟩ := print2m_script hf a3 hcn _ wa c1 c2
  obtain ⟨_, d2, d3⟩ := print2m_script hf b3 hv _ wa v1 v2
  rw [if_neg ne, if_neg ne] at d3
  have m1 : ((s.columns.zipIdx.flatMap fun c => c.1.map fun e => (e.1 + 1, c.2 + 1, e.2)).map fun e => ((e.1 : Nat) : ℝ)) =
      s.stored.map fun e => ((e.1 + 1 : Nat) : ℝ) := by rw [entries_eq, List.map_map]; rfl
  have m2 : ((s.columns.zipIdx.flatMap fun c => c.1.map fun e => (e.1 + 1, c.2 + 1, e.2)).map fun e => ((e.2.1 : Nat) : ℝ)) =
      s.stored.map fun e => ((e.2.1 + 1 : Nat) : ℝ) := by rw [entries_eq, List.map_map]; rfl
  have m3 : ((s.columns.zipIdx.flatMap fun c => c.1.map fun e => (e.1 + 1, c.2 + 1, e.2)).map fun e => e.2.2) =
      s.stored.map fun e => e.2.2 := by rw [entries_eq, List.map_map]; rfl
  unfold print2mSparse
  simp only [m1, m2, m3, openApp]
  refine ⟨trivial, fun n hn' => ?_, ?_⟩
  · simp only [write, if_neg hn']
    rw [d2 n hn', b2 n hn', a2 n hn']
  · generalize print2m fmt _ file ("values_".toList ++ name) _ "a".toList = P at d3
    simp only [write, if_true]
    have hl : name ++ " = sparse(".toList ++ ("rows_".toList ++ name) ++ ",".toList ++ ("cols_".toList ++ name) ++ ",".toList ++ ("values_".toList ++ name) ++
        ");\n".toList = sparseLine name ++ ['\n'] := by simp [sparseLine, List.append_assoc]
    rw [hl]
    refine ⟨ended_append (Or.inr ⟨_, rfl⟩) (by simp), ?_⟩
    have nn : '\n' ∉ sparseLine name := by
      unfold sparseLine
      intro hc
      have hni : '\n' ∉ name := fun h => by
        have := (ident_char hn h).1
        revert this; decide
      simp only [List.mem_append] at hc
      rcases hc with ((((((hc | hc) | (hc | hc)) | hc) | (hc | hc)) | hc) | (hc | hc)) | hc <;> first | exact hni hc | (revert hc; decide)
    have e1 : "rows_".toList ++ name ≠ "cols_".toList ++ name := by simp
    have e2 : "rows_".toList ++ name ≠ "values_".toList ++ name := by simp
    have e3 : "cols_".toList ++ name ≠ "values_".toList ++ name := by simp
    rw [run_ended d3.1, d3.2, run_line _ _ _ nn, run_nil]
    rw [step_sparse3 hn _ e1 e2 e3]
    unfold effect
    simp only [rowsOf_column, flatten_singletons, mkSparse_stored]
    simp only [List.map_map]
    rfl

/-- The file after a history of calls. -/
def session (fmt : ℝ → Str) (file : Str) (fs : Files) (calls : List Call) : Files := calls.foldl (fun fs c => (call fmt file fs c).1) fs

theorem call_script (hf : NumberFormat fmt read D) {fs : Files} {file : Str} {env : Str → Option Value} (h : Script read (fs file) env) (c : Call)
    (hc : c.Ok D) : (call fmt file fs c).2 = 0 ∧ (∀ n, n ≠ file → (call fmt file fs c).1 n = fs n) ∧ Script read ((call fmt file fs c).1 file) (effect env c) := by
  cases c with
  | dense name m mode => exact print2m_script hf h hc.1 m hc.2.1 hc.2.2.1 hc.2.2.2
  | sparse name s mode => exact print2mSparse_script hf h hc.1 s hc.2.1 hc.2.2

theorem session_script (hf : NumberFormat fmt read D) (file : Str) : ∀ (calls : List Call) (fs : Files) (env : Str → Option Value),
    Script read (fs file) env → (∀ c ∈ calls, c.Ok D) → (∀ n, n ≠ file → session fmt file fs calls n = fs n) ∧
      Script read (session fmt file fs calls file) (calls.foldl effect env) := by
  intro calls
  induction calls with
  | nil => exact fun fs env h _ => ⟨fun _ _ => rfl, h⟩
  | cons c calls ih =>
    intro fs env h hok
    obtain ⟨_, h2, h3⟩ := call_script hf h c (hok c (by simp))
    obtain ⟨i1, i2⟩ := ih _ _ h3 fun c hc => hok c (by simp [hc])
    exact ⟨fun n hn => (i1 n hn).trans (h2 n hn), i2⟩

theorem script_any_w {fs fs' : Files} {file : Str} (c : Call) (hw : c.mode = "w".toList) (hrest : ∀ n, n ≠ file → fs n = fs' n) :
    call fmt file fs c = call fmt file fs' c := by
  have ho : openOut fs file = openOut fs' file := by
    funext n
    unfold openOut
    split
    · rfl
    · exact hrest n ‹_›
  have hp : ∀ name m, print2m fmt fs file name m "w".toList = print2m fmt fs' file name m "w".toList := fun name m => by
    unfold print2m
    simp only [if_true, ho]
  cases c with
  | dense name m mode =>
    have : mode = "w".toList := hw
    subst this
    exact hp name m
  | sparse name s mode =>
    have : mode = "w".toList := hw
    subst this
    show print2mSparse _ _ _ _ _ _ = print2mSparse _ _ _ _ _ _
    unfold print2mSparse
    simp only [hp]

theorem effect_w (env env' : Str → Option Value) (c : Call) (hw : c.mode = "w".toList) : effect env c = effect env' c := by
  cases c with
  | dense name m mode =>
    have : mode = "w".toList := hw
    subst this
    simp [effect]
  | sparse name s mode =>
    have : mode = "w".toList := hw
    subst this
    simp [effect]

/-- C72: for every history of calls of `print2m` for a file (dense or sparse, mode `"w"` or `"a"`) that starts with an empty file or with mode `"w"`,
executing the file as a Matlab script gives exactly the variables of the calls since the last `"w"`, later ones overriding earlier ones of the same
name; other files are not changed and every call reports success. -/
theorem C72_history (hf : NumberFormat fmt read D) (file : Str) (fs : Files) (calls : List Call) (hok : ∀ c ∈ calls, c.Ok D)
    (hstart : fs file = [] ∨ ∃ c rest, calls = c :: rest ∧ c.mode = "w".toList) :
    (∀ n, n ≠ file → session fmt file fs calls n = fs n) ∧
      run read ⟨fun _ => none, none⟩ (session fmt file fs calls file) = ⟨calls.foldl effect fun _ => none, none⟩ := by
  have main : ∀ fs : Files, fs file = [] → (∀ n, n ≠ file → session fmt file fs calls n = fs n) ∧
      run read ⟨fun _ => none, none⟩ (session fmt file fs calls file) = ⟨calls.foldl effect fun _ => none, none⟩ := by
    intro fs h
    obtain ⟨h1, h2⟩ := session_script hf file calls fs _ (by rw [h]; exact script_empty) hok
    exact ⟨h1, h2.2⟩
  rcases hstart with h | ⟨c, rest, rfl, hw⟩
  · exact main fs h
  · have h := main (openOut fs file) (by simp [openOut])
    have e : session fmt file fs (c :: rest) = session fmt file (openOut fs file) (c :: rest) := by
      unfold session
      rw [List.foldl_cons, List.foldl_cons, script_any_w c hw fun n hn => (show fs n = openOut fs file n by simp [openOut, hn])]
    rw [e]
    exact ⟨fun n hn => (h.1 n hn).trans (by simp [openOut, hn]), h.2⟩

/-- C72: a call with mode `"w"` does not depend on the old content of the file, a call with mode `"a"` keeps it in front, and a dense call with any
other mode changes no file and reports failure. -/
theorem C72_mode (fs : Files) (file name : Str) (m : EMat ℝ) (mode : Str) :
    (mode = "w".toList ∨ mode = "a".toList → (print2m fmt fs file name m mode).2 = 0 ∧
      ∃ s, (print2m fmt fs file name m mode).1 file = (if mode = "w".toList then [] else fs file) ++ s) ∧
    (mode ≠ "w".toList → mode ≠ "a".toList → print2m fmt fs file name m mode = (fs, 1)) := by
  refine ⟨fun h => ?_, fun h1 h2 => ?_⟩
  · rw [print2m_text fs file name m mode h]
    refine ⟨rfl, varText fmt name m, ?_⟩
    simp only [write, if_true]
    split
    · simp [openOut]
    · rfl
  · unfold print2m
    simp only [if_neg h1, if_neg h2]

/-- What the sparse overload should do with an improper mode, as the dense one does. -/
def RejectsMode (fmt : ℝ → Str) : Prop :=
  ∀ (fs : Files) (file name : Str) (s : Sparse) (mode : Str), mode ≠ "w".toList → mode ≠ "a".toList → print2mSparse fmt fs file name s mode = (fs, 1)

/-- C72: the sparse overload does not reject any mode: it always reports success, and with an improper mode it appends a script without the row indices. -/
theorem C72_mode_violated : (∀ fs file name s mode, (print2mSparse fmt fs file name s mode).2 = 0) ∧ ¬ RejectsMode fmt := by
  refine ⟨fun _ _ _ _ _ => rfl, fun h => ?_⟩
  have := congrArg Prod.snd (h (fun _ => []) [] [] ⟨0, []⟩ [] (by decide) (by decide))
  have h1 : (0 : Int) = 1 := this
  omega

theorem foldl_max_le (l : List Nat) (n : Nat) : ∀ k, l.foldl max k ≤ n ↔ k ≤ n ∧ ∀ x ∈ l, x ≤ n := by
  induction l with
  | nil => simp
  | cons a l ih =>
    intro k
    rw [List.foldl_cons, ih]
    simp only [List.mem_cons, forall_eq_or_imp]
    constructor
    · rintro ⟨h1, h2⟩
      exact ⟨by omega, by omega, h2⟩
    · rintro ⟨h1, h2, h3⟩
      exact ⟨by omega, h3⟩

theorem foldl_max_ge (l : List Nat) (n : Nat) : ∀ k, n ≤ l.foldl max k ↔ n ≤ k ∨ ∃ x ∈ l, n ≤ x := by
  induction l with
  | nil => simp
  | cons a l ih =>
    intro k
    rw [List.foldl_cons, ih]
    simp only [List.mem_cons, exists_eq_or_imp]
    constructor
    · rintro (h | h)
      · rcases le_total k a with h' | h'
        · rw [max_eq_right h'] at h; exact Or.inr (Or.inl h)
        · rw [max_eq_left h'] at h; exact Or.inl h
      · exact Or.inr (Or.inr h)
    · rintro (h | h | h)
      · exact Or.inl (h.trans (le_max_left _ _))
      · exact Or.inl (h.trans (le_max_right _ _))
      · exact Or.inr h

theorem stored_bounds {s : Sparse} (hr : ∀ c ∈ s.columns, ∀ e ∈ c, e.1 < s.rows) {e : Nat × Nat × ℝ} (h : e ∈ s.stored) :
    e.1 < s.rows ∧ e.2.1 < s.columns.length := by
  unfold Sparse.stored at h
  obtain ⟨c, hc, he⟩ := List.mem_flatMap.1 h
  obtain ⟨x, hx, rfl⟩ := List.mem_map.1 he
  refine ⟨hr _ (List.fst_mem_of_mem_zipIdx hc) _ hx, ?_⟩
  obtain ⟨a, i⟩ := c
  have := List.mem_zipIdx hc
  show i < _
  omega

/-- C72: the sparse matrix read back has all the entries, but its size is the one of the matrix only if the last row and the last column have a stored entry. -/
theorem C72_size (s : Sparse) (hr : ∀ c ∈ s.columns, ∀ e ∈ c, e.1 < s.rows) :
    (s.usedRows = s.rows ↔ s.rows = 0 ∨ ∃ e ∈ s.stored, e.1 + 1 = s.rows) ∧
      (s.usedCols = s.columns.length ↔ s.columns.length = 0 ∨ ∃ e ∈ s.stored, e.2.1 + 1 = s.columns.length) := by
  have key : ∀ (l : List Nat) (n : Nat), (∀ x ∈ l, x ≤ n) → (l.foldl max 0 = n ↔ n = 0 ∨ ∃ x ∈ l, x = n) := by
    intro l n h
    have h1 : l.foldl max 0 ≤ n := (foldl_max_le l n 0).2 ⟨Nat.zero_le _, h⟩
    constructor
    · intro he
      rcases (foldl_max_ge l n 0).1 he.ge with h2 | ⟨x, hx, h2⟩
      · exact Or.inl (by omega)
      · exact Or.inr ⟨x, hx, le_antisymm (h x hx) h2⟩
    · rintro (h2 | ⟨x, hx, h2⟩)
      · exact le_antisymm h1 (by omega)
      · exact le_antisymm h1 ((foldl_max_ge l n 0).2 (Or.inr ⟨x, hx, h2.ge⟩))
  unfold Sparse.usedRows Sparse.usedCols
  constructor
  · rw [key]
    · simp only [List.mem_map, exists_exists_and_eq_and]
    · intro x hx
      obtain ⟨e, he, rfl⟩ := List.mem_map.1 hx
      exact (stored_bounds hr he).1
  · rw [key]
    · simp only [List.mem_map, exists_exists_and_eq_and]
    · intro x hx
      obtain ⟨e, he, rfl⟩ := List.mem_map.1 hx
      exact (stored_bounds hr he).2

/-- A 2×2 matrix with one stored entry. -/
noncomputable def corner : Sparse := ⟨2, [[(0, 7)], []]⟩

/-- C72: a file written from a sparse matrix may define a matrix of another size: the 2×2 matrix with the only entry (0,0) comes back as a 1×1 matrix. -/
theorem C72_size_violated (hf : NumberFormat fmt read D) (h7 : (7 : ℝ) ∈ D) (fs : Files) (file : Str) :
    (∀ c ∈ corner.columns, ∀ e ∈ c, e.1 < corner.rows) ∧ corner.rows = 2 ∧ corner.columns.length = 2 ∧
      (run read ⟨fun _ => none, none⟩ ((print2mSparse fmt fs file "A".toList corner "w".toList).1 file)).env "A".toList =
        some (.sparse 1 1 corner.entry) := by
  refine ⟨?_, rfl, rfl, ?_⟩
  · intro c hc e he
    simp only [corner, List.mem_cons, List.not_mem_nil, or_false] at hc
    rcases hc with rfl | rfl
    · simp only [List.mem_singleton] at he
      subst he; decide
    · simp at he
  · have := (C72_history hf file fs [.sparse "A".toList corner "w".toList] (fun c hc => by
      rw [List.mem_singleton] at hc
      subst hc
      refine ⟨⟨by decide, by decide⟩, Or.inl rfl, ?_⟩
      intro c hc e he
      simp only [corner, List.mem_cons, List.not_mem_nil, or_false] at hc
      rcases hc with rfl | rfl
      · simp only [List.mem_singleton] at he
        subst he; exact h7
      · simp at he) (Or.inr ⟨_, _, rfl, rfl⟩)).2
    have e : (print2mSparse fmt fs file "A".toList corner "w".toList).1 = session fmt file fs [.sparse "A".toList corner "w".toList] := rfl
    rw [e, this]
    simp [effect, assign, Sparse.usedRows, Sparse.usedCols, Sparse.stored, corner]

/-- Naturals in decimal digits. -/
noncomputable def natFormat (x : ℝ) : Str := Nat.toDigits 10 ⌊x⌋₊

/-- The value of digits. -/
noncomputable def natRead (w : Str) : ℝ := ((Nat.ofDigitChars 10 w 0 : Nat) : ℝ)

theorem natFormat_ok : NumberFormat natFormat natRead (Set.range fun n : Nat => (n : ℝ)) where
  token := fun _ _ => token_digits _
  bracket := fun x _ h => by
    have := Nat.isDigit_of_mem_toDigits (by norm_num) (by norm_num) h
    revert this; decide
  exact := by
    rintro _ ⟨n, rfl⟩
    simp [natFormat, natRead]
  nat := fun n => ⟨n, rfl⟩

/-- The hypotheses of C72 are met by a history with a dense matrix, a sparse one and another matrix with the first name. -/
example (fs : Files) := C72_history natFormat_ok "out.m".toList fs
  [.dense "A".toList ⟨2, 3, fun i j => ((i + j : Nat) : ℝ)⟩ "w".toList, .sparse "S".toList corner "a".toList,
    .dense "A".toList ⟨1, 1, fun _ _ => ((5 : Nat) : ℝ)⟩ "a".toList]
  (fun c hc => by
    simp only [List.mem_cons, List.not_mem_nil, or_false] at hc
    rcases hc with rfl | rfl | rfl
    · exact ⟨⟨by decide, by decide⟩, Or.inl rfl, Or.inr (by decide), fun i _ j _ => ⟨_, rfl⟩⟩
    · refine ⟨⟨by decide, by decide⟩, Or.inr rfl, ?_⟩
      intro c hc e he
      simp only [corner, List.mem_cons, List.not_mem_nil, or_false] at hc
      rcases hc with rfl | rfl
      · simp only [List.mem_singleton] at he
        subst he; exact ⟨7, by norm_num⟩
      · simp at he
    · exact ⟨⟨by decide, by decide⟩, Or.inr rfl, Or.inr (by decide), fun i _ j _ => ⟨_, rfl⟩⟩)
  (Or.inr ⟨_, _, rfl, rfl⟩)

end Bembel.Props
