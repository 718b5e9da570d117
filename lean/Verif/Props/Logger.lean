import Verif.Model.Logger
import Verif.Lemmas.Text
import Verif.Props.TextIO
/-!
# Property C74: log files
-/

namespace Bembel.Props
open Bembel.Text Bembel.TextIO Bembel.Logger

/-- The rows a history of calls sends to the file. -/
def fileRows (calls : List Logger.Call) : List (List Str) := calls.filterMap fun
  | .file a => some a
  | .term _ => none
  | .both a => some a

/-- The rows a history of calls sends to the terminal. -/
def termRows (calls : List Logger.Call) : List (List Str) := calls.filterMap fun
  | .file _ => none
  | .term a => some a
  | .both a => some a

/-- The arguments of a call. -/
def args : Logger.Call → List Str
  | .file a => a
  | .term a => a
  | .both a => a

/-- The table that a reader of lines and words sees (the text ends with a line end). -/
def tableOf (s : Str) : List (List Str) := ((s.splitOn '\n').dropLast).map words

/-- Calls of C++ have at least one argument; the arguments are printed as words. -/
def ArgsOk (calls : List Logger.Call) : Prop := ∀ x ∈ calls, args x ≠ [] ∧ ∀ t ∈ args x, Token t

/-- A separator of white space on one line. -/
def SepOk (sep : Str) : Prop := sep ≠ [] ∧ ∀ x ∈ sep, x = ' ' ∨ x = '\t'

/-- The text of a line as written to the file. -/
def lineText (c : Config) : List Str → Str
  | [] => []
  | [t] => padRight (c.N + c.sep.length) t
  | t :: arg => padRight (c.N + c.sep.length) t ++ c.sep ++ lineText c arg

theorem lineText_cons2 (c : Config) (t t' : Str) (a : List Str) :
    lineText c (t :: t' :: a) = padRight (c.N + c.sep.length) t ++ c.sep ++ lineText c (t' :: a) := rfl

theorem file_cons2 (c : Config) (s : Logger.State) (t t' : Str) (a : List Str) : Logger.file c s (t :: t' :: a) =
    Logger.file c { (if s.isOpen = false then { s with isOpen := true, files := openOut s.files c.name } else s) with
      files := write (if s.isOpen = false then { s with isOpen := true, files := openOut s.files c.name } else s).files c.name
        (padRight (c.N + c.sep.length) t ++ c.sep) } (t' :: a) := rfl

theorem logger_file_eq (c : Config) : ∀ (a : List Str), a ≠ [] → ∀ s : Logger.State, Logger.file c s a =
    { s with isOpen := true, files := write (if s.isOpen = false then openOut s.files c.name else s.files) c.name (lineText c a ++ "\n".toList) } := by
  have hw : ∀ (fs : Files) a b, write (write fs c.name a) c.name b = write fs c.name (a ++ b) := by
    intro fs a b
    funext n
    unfold write
    split <;> simp
  intro a
  induction a with
  | nil => exact fun h => absurd rfl h
  | cons t a ih =>
    intro _ s
    cases a with
    | nil =>
      unfold Logger.file lineText
      cases s with
      | mk o f tm l => cases o <;> rfl
    | cons t' a =>
      rw [file_cons2, ih (by simp), lineText_cons2]
      cases s with
      | mk o f tm l =>
        cases o
        · simp [hw, List.append_assoc]
        · simp [hw, List.append_assoc]

theorem words_padRight {w : Nat} {t : Str} (h : Token t) (rest : Str) (hr : rest = [] ∨ ∃ x r, rest = x :: r ∧ x.isWhitespace = true) :
    words (padRight w t ++ rest) = t :: words rest := by
  unfold padRight
  cases hk : w - t.length with
  | zero =>
    rw [List.replicate_zero, List.append_nil]
    rcases hr with rfl | ⟨x, r, rfl, hx⟩
    · rw [List.append_nil, words_token h, words_nil]
    · rw [words_sep _ _ _ hx, words_token h, words_space _ _ hx]
      rfl
  | succ k =>
    rw [List.replicate_succ, List.append_assoc, List.cons_append, words_sep _ _ _ (by decide), words_token h, words_blanks]
    rfl

theorem words_blank_prefix (sep rest : Str) (h : ∀ x ∈ sep, x = ' ' ∨ x = '\t') : words (sep ++ rest) = words rest := by
  induction sep with
  | nil => rfl
  | cons x sep ih =>
    have hx : x.isWhitespace = true := by rcases h x (by simp) with rfl | rfl <;> decide
    rw [List.cons_append, words_space _ _ hx, ih fun y hy => h y (by simp [hy])]

theorem words_lineText (c : Config) (hs : SepOk c.sep) : ∀ a : List Str, (∀ t ∈ a, Token t) → words (lineText c a) = a := by
  intro a
  induction a with
  | nil => intro _; exact words_nil
  | cons t a ih =>
    intro h
    cases a with
    | nil =>
      have := words_padRight (w := c.N + c.sep.length) (h t (by simp)) [] (Or.inl rfl)
      rw [List.append_nil, words_nil] at this
      exact this
    | cons t' a =>
      rw [lineText]
      · obtain ⟨x, r, hx⟩ := List.exists_cons_of_ne_nil hs.1
        rw [List.append_assoc, words_padRight (h t (by simp)) _ (Or.inr ⟨x, r ++ lineText c (t' :: a), by rw [hx]; rfl, ?_⟩), words_blank_prefix _ _ hs.2,
          ih fun y hy => h y (by simp [hy])]
        rcases hs.2 x (by rw [hx]; simp) with rfl | rfl <;> decide
      · simp

theorem lineText_no_newline (c : Config) (hs : ∀ x ∈ c.sep, x ≠ '\n') : ∀ a : List Str, (∀ t ∈ a, Token t) → '\n' ∉ lineText c a := by
  have hp : ∀ w t, Token t → '\n' ∉ padRight w t := fun w t h hm => by
    rcases List.mem_append.1 hm with hm | hm
    · exact token_no_newline h hm
    · have := List.eq_of_mem_replicate hm
      revert this; decide
  intro a
  induction a with
  | nil => intro _; simp [lineText]
  | cons t a ih =>
    intro h
    cases a with
    | nil => exact hp _ _ (h t (by simp))
    | cons t' a =>
      rw [lineText]
      · intro hm
        rcases List.mem_append.1 hm with hm | hm
        · rcases List.mem_append.1 hm with hm | hm
          · exact hp _ _ (h t (by simp)) hm
          · exact hs _ hm rfl
        · exact ih (fun y hy => h y (by simp [hy])) hm
      · simp

theorem tableOf_nil : tableOf [] = [] := by simp [tableOf]

theorem tableOf_split (a b : Str) : tableOf (a ++ '\n' :: b) = (a.splitOn '\n').map words ++ tableOf b := by
  unfold tableOf
  rw [splitOn_append, List.dropLast_append_of_ne_nil (show b.splitOn '\n' ≠ [] from List.splitOnP_ne_nil _ b), List.map_append]

/-- A further line. -/
theorem tableOf_snoc {a : Str} (he : Ended a) (l : Str) (h : '\n' ∉ l) : tableOf (a ++ (l ++ "\n".toList)) = tableOf a ++ [words l] := by
  have hl : tableOf (l ++ "\n".toList) = [words l] := by
    rw [show "\n".toList = '\n' :: [] from rfl, tableOf_split, splitOn_line l h, tableOf_nil]
    rfl
  rcases he with rfl | ⟨t, rfl⟩
  · rw [List.nil_append, hl, tableOf_nil, List.nil_append]
  · rw [List.append_assoc, List.singleton_append, tableOf_split, tableOf_split, tableOf_nil, hl, List.append_nil]

/-- The text that the calls send to the terminal. -/
def termText (c : Config) (left : Bool) : List Str → Str
  | [] => []
  | [t] => (if left = true then padRight else padLeft) (c.N + c.sep.length) t
  | a => lineText c a

theorem logger_term_eq (c : Config) : ∀ (a : List Str), a ≠ [] → ∀ s : Logger.State, ∃ l, Logger.term c s a =
    { s with term := s.term ++ (termText c s.left a ++ "\n".toList), left := l } := by
  have gen : ∀ (a : List Str), a ≠ [] → ∀ s : Logger.State, s.left = true → Logger.term c s a = { s with term := s.term ++ (lineText c a ++ "\n".toList) } := by
    intro a
    induction a with
    | nil => exact fun h => absurd rfl h
    | cons t a ih =>
      intro _ s hs
      cases a with
      | nil =>
        show { s with term := _ } = _
        rw [if_pos hs]
        rfl
      | cons t' a =>
        show Logger.term c _ (t' :: a) = _
        rw [ih (by simp) _ rfl, lineText_cons2]
        cases s with
        | mk o f tm l =>
          have : l = true := hs
          subst this
          simp [List.append_assoc]
  intro a ha s
  match a, ha with
  | [t], _ => exact ⟨s.left, rfl⟩
  | t :: t' :: a, _ =>
    refine ⟨true, ?_⟩
    show Logger.term c _ (t' :: a) = _
    rw [gen (t' :: a) (by simp) _ rfl]
    show _ = { s with term := s.term ++ (lineText c (t :: t' :: a) ++ _), left := true }
    rw [lineText_cons2]
    simp [List.append_assoc]

theorem words_termText (c : Config) (hs : SepOk c.sep) (left : Bool) (a : List Str) (h : ∀ t ∈ a, Token t) : words (termText c left a) = a := by
  match a with
  | [] => exact words_nil
  | [t] =>
    cases left
    · show words (padLeft _ t) = _
      unfold padLeft
      rw [words_blanks, words_token (h t (by simp))]
    · exact words_lineText c hs [t] h
  | t :: t' :: a => exact words_lineText c hs _ h

theorem termText_no_newline (c : Config) (hs : ∀ x ∈ c.sep, x ≠ '\n') (left : Bool) (a : List Str) (h : ∀ t ∈ a, Token t) : '\n' ∉ termText c left a := by
  match a with
  | [] => simp [termText]
  | [t] =>
    cases left
    · show '\n' ∉ padLeft _ t
      intro hm
      rcases List.mem_append.1 hm with hm | hm
      · have := List.eq_of_mem_replicate hm
        revert this; decide
      · exact token_no_newline (h t (by simp)) hm
    · exact lineText_no_newline c hs [t] h
  | t :: t' :: a => exact lineText_no_newline c hs _ h

/-- A logger that has not written anything. -/
def fresh (fs : Files) (terminal : Str) (left : Bool) : Logger.State := ⟨false, fs, terminal, left⟩

theorem logger_history (c : Config) (hs : SepOk c.sep) (fs : Files) (tm : Str) (lf : Bool) (calls : List Logger.Call) (h : ArgsOk calls) :
    ∃ out, (calls.foldl (Logger.call c) (fresh fs tm lf)).term = tm ++ out ∧ Ended out ∧ tableOf out = termRows calls ∧
      ((calls.foldl (Logger.call c) (fresh fs tm lf)).isOpen = true ↔ fileRows calls ≠ []) ∧
      (∀ n, n ≠ c.name → (calls.foldl (Logger.call c) (fresh fs tm lf)).files n = fs n) ∧
      (fileRows calls = [] → (calls.foldl (Logger.call c) (fresh fs tm lf)).files = fs) ∧
      (fileRows calls ≠ [] → Ended ((calls.foldl (Logger.call c) (fresh fs tm lf)).files c.name) ∧
        tableOf ((calls.foldl (Logger.call c) (fresh fs tm lf)).files c.name) = fileRows calls) := by
  have hnl : ∀ x ∈ c.sep, x ≠ '\n' := fun x hx => by rcases hs.2 x hx with rfl | rfl <;> decide
  induction calls using List.reverseRecOn with
  | nil => exact ⟨[], by simp [fresh], Or.inl rfl, tableOf_nil, by simp [fresh, fileRows], fun _ _ => rfl, fun _ => rfl, fun h => absurd rfl h⟩
  | append_singleton calls x ih =>
    obtain ⟨out, i1, i2, i3, i4, i5, i6, i7⟩ := ih fun y hy => h y (by simp [hy])
    obtain ⟨hne, htok⟩ := h x (by simp)
    rw [List.foldl_append, List.foldl_cons, List.foldl_nil]
    generalize calls.foldl (Logger.call c) (fresh fs tm lf) = s at i1 i4 i5 i6 i7
    have end1 : ∀ l : Str, Ended (l ++ "\n".toList) ∧ l ++ "\n".toList ≠ [] := fun l => ⟨Or.inr ⟨l, rfl⟩, by simp⟩
    -- the file part
    have hfile : ∀ a : List Str, a ≠ [] → (∀ t ∈ a, Token t) → (Logger.file c s a).isOpen = true ∧ (∀ n, n ≠ c.name → (Logger.file c s a).files n = fs n) ∧
        Ended ((Logger.file c s a).files c.name) ∧ tableOf ((Logger.file c s a).files c.name) = fileRows calls ++ [a] ∧
        (Logger.file c s a).term = s.term ∧ (Logger.file c s a).left = s.left := by
      intro a ha ht
      rw [logger_file_eq c a ha]
      obtain ⟨e1, e2⟩ := end1 (lineText c a)
      have hbase : Ended ((if s.isOpen = false then openOut s.files c.name else s.files) c.name) ∧
          tableOf ((if s.isOpen = false then openOut s.files c.name else s.files) c.name) = fileRows calls := by
        cases ho : s.isOpen with
        | false =>
          have hr : fileRows calls = [] := by
            by_contra hr
            rw [i4.2 hr] at ho
            exact absurd ho (by simp)
          rw [if_pos rfl, hr]
          simp only [openOut, if_true]
          exact ⟨Or.inl rfl, tableOf_nil⟩
        | true =>
          rw [if_neg (by simp)]
          exact i7 (i4.1 ho)
      refine ⟨rfl, fun n hn => ?_, ?_, ?_, rfl, rfl⟩
      · simp only [write, if_neg hn]
        split
        · simp only [openOut, if_neg hn]; exact i5 n hn
        · exact i5 n hn
      · simp only [write, if_true]
        exact ended_append e1 e2
      · simp only [write, if_true]
        rw [tableOf_snoc hbase.1 _ (lineText_no_newline c hnl a ht), hbase.2, words_lineText c hs a ht]
    -- the terminal part
    have hterm : ∀ (s : Logger.State) (a : List Str), a ≠ [] → (∀ t ∈ a, Token t) → s.term = tm ++ out → ∃ out', (Logger.term c s a).term = tm ++ out' ∧ Ended out' ∧
        tableOf out' = termRows calls ++ [a] ∧ (Logger.term c s a).files = s.files ∧ (Logger.term c s a).isOpen = s.isOpen := by
      intro s a ha ht hst
      obtain ⟨l, hl⟩ := logger_term_eq c a ha s
      obtain ⟨e1, e2⟩ := end1 (termText c s.left a)
      rw [hl]
      refine ⟨out ++ (termText c s.left a ++ "\n".toList), by rw [hst, List.append_assoc], ended_append e1 e2, ?_, rfl, rfl⟩
      rw [tableOf_snoc i2 _ (termText_no_newline c hnl _ a ht), i3, words_termText c hs _ a ht]
    have fr : fileRows (calls ++ [x]) = fileRows calls ++ fileRows [x] := List.filterMap_append
    have tr : termRows (calls ++ [x]) = termRows calls ++ termRows [x] := List.filterMap_append
    rw [fr, tr]
    cases x with
    | file a =>
      obtain ⟨f1, f2, f3, f4, f5, f6⟩ := hfile a hne htok
      refine ⟨out, f5.trans i1, i2, by rw [i3]; exact (List.append_nil _).symm, ⟨fun _ => by simp [fileRows], fun _ => f1⟩, f2, fun h => by simp [fileRows] at h,
        fun _ => ⟨f3, f4⟩⟩
    | term a =>
      obtain ⟨out', t1, t2, t3, t4, t5⟩ := hterm s a hne htok i1
      have e : fileRows calls ++ fileRows [Logger.Call.term a] = fileRows calls := List.append_nil _
      rw [e]
      show ∃ out, (Logger.term c s a).term = tm ++ out ∧ _
      refine ⟨out', t1, t2, t3, ?_⟩
      show ((Logger.term c s a).isOpen = true ↔ _) ∧ (∀ n, n ≠ c.name → (Logger.term c s a).files n = fs n) ∧ (_ → (Logger.term c s a).files = fs) ∧
        (_ → Ended ((Logger.term c s a).files c.name) ∧ tableOf ((Logger.term c s a).files c.name) = _)
      rw [t4, t5]
      exact ⟨i4, i5, i6, i7⟩
    | both a =>
      obtain ⟨f1, f2, f3, f4, f5, f6⟩ := hfile a hne htok
      obtain ⟨out', t1, t2, t3, t4, t5⟩ := hterm (Logger.file c s a) a hne htok (f5.trans i1)
      show ∃ out, (Logger.term c (Logger.file c s a) a).term = tm ++ out ∧ _
      refine ⟨out', t1, t2, t3, ?_⟩
      show ((Logger.term c (Logger.file c s a) a).isOpen = true ↔ _) ∧ (∀ n, n ≠ c.name → (Logger.term c (Logger.file c s a) a).files n = fs n) ∧
        (_ → (Logger.term c (Logger.file c s a) a).files = fs) ∧
        (_ → Ended ((Logger.term c (Logger.file c s a) a).files c.name) ∧ tableOf ((Logger.term c (Logger.file c s a) a).files c.name) = _)
      rw [t4, t5]
      exact ⟨⟨fun _ => by simp [fileRows], fun _ => f1⟩, f2, fun h => by simp [fileRows] at h, fun _ => ⟨f3, f4⟩⟩

/-- C74: for every history of calls of a new logger with a white-space separator, the file read as a table of lines and words contains exactly the rows
passed to `file` and `both`, in this order (nothing is written before the first such call); the terminal shows the rows passed to `term` and `both`
after what was there before; other files are not changed. -/
theorem C74_table (c : Config) (hs : SepOk c.sep) (fs : Files) (tm : Str) (lf : Bool) (calls : List Logger.Call) (h : ArgsOk calls) :
    (fileRows calls = [] → (calls.foldl (Logger.call c) (fresh fs tm lf)).files = fs) ∧
      (fileRows calls ≠ [] → tableOf ((calls.foldl (Logger.call c) (fresh fs tm lf)).files c.name) = fileRows calls) ∧
      (∀ n, n ≠ c.name → (calls.foldl (Logger.call c) (fresh fs tm lf)).files n = fs n) ∧
      ∃ out, (calls.foldl (Logger.call c) (fresh fs tm lf)).term = tm ++ out ∧ tableOf out = termRows calls := by
  obtain ⟨out, i1, _, i3, _, i5, i6, i7⟩ := logger_history c hs fs tm lf calls h
  exact ⟨i6, fun h => (i7 h).2, i5, out, i1, i3⟩

/-- What a user expects of the mode `app`: the old content is kept. -/
def KeepsWhenAppending : Prop := ∀ (c : Config) (fs : Files) (tm : Str) (lf : Bool) (calls : List Logger.Call), c.mode = .app → ArgsOk calls →
  ∃ s, (calls.foldl (Logger.call c) (fresh fs tm lf)).files c.name = fs c.name ++ s

/-- C74: the mode given to the constructor is ignored: the old content is lost although `std::ios::app` was requested. -/
theorem C74_mode_violated : ¬ KeepsWhenAppending := by
  intro h
  obtain ⟨s, hs⟩ := h { mode := .app } (fun _ => "old\n".toList) [] false [.file ["1".toList]] rfl (fun x hx => by
    rw [List.mem_singleton] at hx
    subst hx
    refine ⟨by simp [args], fun t ht => ?_⟩
    have : t = "1".toList := by simpa [args] using ht
    subst this
    exact token_digits 1)
  rw [List.foldl_cons, List.foldl_nil] at hs
  have e : (Logger.call { mode := .app } (fresh (fun _ => "old\n".toList) [] false) (.file ["1".toList])).files "default.log".toList =
    padRight 11 "1".toList ++ "\n".toList := by rfl
  have e2 := congrArg List.head? (e.symm.trans hs)
  revert e2
  simp [padRight]

/-- The hypotheses of C74 are met by a table with two columns and a remark on the terminal. -/
example (fs : Files) := C74_table { sep := "\t".toList } ⟨by decide, by decide⟩ fs [] false
  [.both ["level".toList, "error".toList], .term ["remark".toList], .file ["3".toList, "12".toList]]
  (by unfold ArgsOk Token; decide)

end Bembel.Props
