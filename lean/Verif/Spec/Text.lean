import Mathlib.Data.List.SplitOn
/-!
# Specification: how text and XML files are read

These functions are independent of the code: a text is cut at white space into words, an XML text is cut into its tags and the words
that follow each tag.
-/

namespace Bembel

/-- A text. -/
abbrev Str := List Char

namespace Text

/-- The words of a text: the nonempty pieces between white space. -/
def words (s : Str) : List Str := (s.splitOnP Char.isWhitespace).filter (· ≠ [])

/-- A reader of (simple) XML files: every piece between two `<` consists of the tag, which ends at the first `>`, and of text.  The list of
all tags, each with the words of the text behind it. -/
def scan (s : Str) : List (Str × List Str) :=
  ((s.splitOn '<').drop 1).map fun seg => (seg.takeWhile (· ≠ '>'), words ((seg.dropWhile (· ≠ '>')).drop 1))

/-- A printed number: not empty, without white space and angle brackets. -/
def Token (w : Str) : Prop := w ≠ [] ∧ ∀ c ∈ w, c.isWhitespace = false ∧ c ≠ '<' ∧ c ≠ '>'

/-- A text that can be used in an attribute. -/
def Plain (w : Str) : Prop := ∀ c ∈ w, c ≠ '<' ∧ c ≠ '>'

end Text
end Bembel
