import Mathlib.Data.Real.Basic
import Verif.Spec.Text
import Verif.Model.EMat
/-!
# Model of the text output in `IO/print2file.hpp` l.19-105

The file system maps names to contents (a file that does not exist is empty); opening a file succeeds.  The formatting of numbers is a
parameter.
-/

namespace Bembel
namespace TextIO

/-- The contents of all files. -/
abbrev Files := Str → Str

/-- `std::ofstream::open(name)`: the old content is discarded. -/
def openOut (fs : Files) (name : Str) : Files := fun n => if n = name then [] else fs n

/-- `std::ofstream::open(name, std::ios_base::app)`. -/
def openApp (fs : Files) (_ : Str) : Files := fs

/-- Output to an open file. -/
def write (fs : Files) (name s : Str) : Files := fun n => if n = name then fs n ++ s else fs n

/-- The loops over rows and columns, print2file.hpp l.30-34 and l.63-67. -/
def matrixText (fmt : ℝ → Str) (m : EMat ℝ) : Str :=
  (List.range m.rows).flatMap fun i => ((List.range m.cols).flatMap fun j => fmt (m.at' i j) ++ " \t ".toList) ++ "\n".toList

/-- `print2ascii`, print2file.hpp l.19-38 (`fmt` with ten digits). -/
def print2ascii (fmt : ℝ → Str) (fs : Files) (fileName : Str) (var : EMat ℝ) : Files × Int :=
  let fs := openOut fs fileName
  (write fs fileName (matrixText fmt var), 0)

/-- `print2m` for dense matrices, print2file.hpp l.43-73. -/
def print2m (fmt : ℝ → Str) (fs : Files) (fileName varName : Str) (var : EMat ℝ) (writeMode : Str) : Files × Int :=
  let opened :=
    if writeMode = "w".toList then some (openOut fs fileName)
    else if writeMode = "a".toList then some (openApp fs fileName)
    else none
  match opened with
  | none => (fs, 1)
  | some fs =>
    let fs := write fs fileName (varName ++ "=[".toList ++ "\n".toList)
    let fs := write fs fileName (matrixText fmt var)
    let fs := write fs fileName ("];".toList ++ "\n".toList)
    (fs, 0)

/-- `Eigen::SparseMatrix` (column major): number of rows, and for each column the stored entries (row, value). -/
structure Sparse where
  rows : Nat
  columns : List (List (Nat × ℝ))

/-- A column vector. -/
def column (l : List ℝ) : EMat ℝ := ⟨l.length, 1, fun i _ => l.getD i 0⟩

/-- `print2m` for sparse matrices, print2file.hpp l.75-105; the loop l.83-90 fills the three vectors in the order of the iterators. -/
def print2mSparse (fmt : ℝ → Str) (fs : Files) (fileName varName : Str) (var : Sparse) (writeMode : Str) : Files × Int :=
  let entries := var.columns.zipIdx.flatMap fun c => c.1.map fun e => (e.1 + 1, c.2 + 1, e.2)
  let rowInd := column (entries.map fun e => ((e.1 : Nat) : ℝ))
  let colInd := column (entries.map fun e => ((e.2.1 : Nat) : ℝ))
  let value := column (entries.map fun e => e.2.2)
  let fs := (print2m fmt fs fileName ("rows_".toList ++ varName) rowInd writeMode).1
  let fs := (print2m fmt fs fileName ("cols_".toList ++ varName) colInd "a".toList).1
  let fs := (print2m fmt fs fileName ("values_".toList ++ varName) value "a".toList).1
  let fs := openApp fs fileName
  let fs := write fs fileName (varName ++ " = sparse(".toList ++ ("rows_".toList ++ varName) ++ ",".toList ++ ("cols_".toList ++ varName) ++
    ",".toList ++ ("values_".toList ++ varName) ++ ");\n".toList)
  (fs, 0)

/-- A call of one of the two overloads of `print2m` for a given file. -/
inductive Call where
  | dense (name : Str) (m : EMat ℝ) (mode : Str)
  | sparse (name : Str) (m : Sparse) (mode : Str)

/-- The effect of a call. -/
def call (fmt : ℝ → Str) (fileName : Str) (fs : Files) : Call → Files × Int
  | .dense name m mode => print2m fmt fs fileName name m mode
  | .sparse name m mode => print2mSparse fmt fs fileName name m mode

end TextIO
end Bembel
