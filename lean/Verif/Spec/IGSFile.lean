import Mathlib.Data.List.Basic
/-!
# Specification: lines of an IGES file

Every line has 80 columns.  Column 72 (counted from 0) holds the letter of the section, the columns 73-79 the number of the line within the section,
right aligned.
-/

namespace Bembel.Spec

/-- The columns `a, …, a + n - 1` of a line. -/
def columns (line : List Char) (a n : Nat) : List Char := (line.drop a).take n

/-- The `n` columns from column `a` on hold the number `k`, right aligned. -/
def NumberAt (line : List Char) (a n k : Nat) : Prop :=
  columns line a n = List.replicate (n - (Nat.repr k).length) ' ' ++ (Nat.repr k).toList

/-- Line number `k` of the section with letter `c`. -/
def IGSLine (c : Char) (k : Nat) (line : List Char) : Prop :=
  line.length = 80 ∧ line[72]? = some c ∧ NumberAt line 73 7 k

end Bembel.Spec
