import Mathlib.Algebra.BigOperators.Group.Finset.Defs
import Mathlib.Algebra.Ring.Defs
import Mathlib.Data.Finset.Range
/-!
# Dynamic Eigen matrices

A matrix is its extents and a function for the entries; entries outside of the extents are meaningless and never read.
Operations whose run time assertion would fail (and which are undefined behaviour without assertions) return `none`.
Scalars are elements of a commutative ring: exact arithmetic, one scalar type (`double` and `std::complex<double>` are
not distinguished).
-/

namespace Bembel

open Finset

/-- `Eigen::Matrix<Scalar, Dynamic, Dynamic>` (column-major). -/
structure EMat (R : Type) where
  rows : Nat
  cols : Nat
  at' : Nat → Nat → R

namespace EMat

variable {R : Type} [CommRing R]

/-- `A * B`. -/
def mul (A B : EMat R) : Option (EMat R) :=
  if A.cols = B.rows then some ⟨A.rows, B.cols, fun i j => ∑ k ∈ range A.cols, A.at' i k * B.at' k j⟩ else none

/-- `A.transpose()`. -/
def tr (A : EMat R) : EMat R := ⟨A.cols, A.rows, fun i j => A.at' j i⟩

/-- `A + B`. -/
def add (A B : EMat R) : Option (EMat R) :=
  if A.rows = B.rows ∧ A.cols = B.cols then some ⟨A.rows, A.cols, fun i j => A.at' i j + B.at' i j⟩ else none

/-- `Map<Matrix>(A.data(), r, c)`: column-major memory of `A` seen as an `r × c` matrix; undefined if it reads beyond
the memory of `A`. -/
def reshape (A : EMat R) (r c : Nat) : Option (EMat R) :=
  if r * c ≤ A.rows * A.cols then some ⟨r, c, fun i j => A.at' ((j * r + i) % A.rows) ((j * r + i) / A.rows)⟩ else none

/-- `A.block(i, j, r, c)`. -/
def block (A : EMat R) (i j r c : Nat) : Option (EMat R) :=
  if i + r ≤ A.rows ∧ j + c ≤ A.cols then some ⟨r, c, fun a b => A.at' (i + a) (j + b)⟩ else none

/-- `A.block(i, j, r, c) = B`. -/
def setBlock (A : EMat R) (i j r c : Nat) (B : EMat R) : Option (EMat R) :=
  if i + r ≤ A.rows ∧ j + c ≤ A.cols ∧ B.rows = r ∧ B.cols = c then
    some ⟨A.rows, A.cols, fun a b => if (i ≤ a ∧ a < i + r) ∧ (j ≤ b ∧ b < j + c) then B.at' (a - i) (b - j)
      else A.at' a b⟩
  else none

/-- Comma initialiser `M << b0, b1, b2, b3` with four blocks below each other that fill all columns. -/
def vcat4 (b0 b1 b2 b3 : EMat R) : EMat R :=
  ⟨b0.rows + b1.rows + b2.rows + b3.rows, b0.cols, fun i j =>
    if i < b0.rows then b0.at' i j
    else if i < b0.rows + b1.rows then b1.at' (i - b0.rows) j
    else if i < b0.rows + b1.rows + b2.rows then b2.at' (i - b0.rows - b1.rows) j
    else b3.at' (i - b0.rows - b1.rows - b2.rows) j⟩

/-- `A.col(k) += v` for a vector `v` of length `n`. -/
def addCol (A : EMat R) (k n : Nat) (v : Nat → R) : Option (EMat R) :=
  if k < A.cols ∧ n = A.rows then some ⟨A.rows, A.cols, fun i j => if j = k then A.at' i j + v i else A.at' i j⟩
  else none

end EMat
end Bembel
