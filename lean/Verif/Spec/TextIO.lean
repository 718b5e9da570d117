import Verif.Spec.Matlab
import Verif.Model.TextIO
/-!
# Specification: what the files of `print2m` mean
-/

namespace Bembel
namespace TextIO
open Matlab

/-- The rows of a matrix. -/
def rowsOf (m : EMat ℝ) : List (List ℝ) := (List.range m.rows).map fun i => (List.range m.cols).map (m.at' i)

/-- Entry `(r, c)` of a sparse matrix: the sum of the stored values. -/
def Sparse.entry (s : Sparse) (r c : Nat) : ℝ := ((s.columns.getD c []).map fun e => if e.1 = r then e.2 else 0).sum

/-- The stored entries (row, column, value), column by column. -/
def Sparse.stored (s : Sparse) : List (Nat × Nat × ℝ) := s.columns.zipIdx.flatMap fun c => c.1.map fun e => (e.1, c.2, e.2)

/-- The number of rows up to the last one with a stored entry. -/
def Sparse.usedRows (s : Sparse) : Nat := (s.stored.map fun e => e.1 + 1).foldl max 0

/-- The number of columns up to the last one with a stored entry. -/
def Sparse.usedCols (s : Sparse) : Nat := (s.stored.map fun e => e.2.1 + 1).foldl max 0

/-- The variables after a call: `"w"` starts a new file. -/
noncomputable def effect (env : Str → Option Value) : Call → Str → Option Value
  | .dense name m mode => assign (if mode = "w".toList then fun _ => none else env) name (.full (rowsOf m))
  | .sparse name s mode =>
    let env := if mode = "w".toList then fun _ => none else env
    let env := assign env ("rows_".toList ++ name) (.full (s.stored.map fun e => [((e.1 + 1 : Nat) : ℝ)]))
    let env := assign env ("cols_".toList ++ name) (.full (s.stored.map fun e => [((e.2.1 + 1 : Nat) : ℝ)]))
    let env := assign env ("values_".toList ++ name) (.full (s.stored.map fun e => [e.2.2]))
    assign env name (.sparse s.usedRows s.usedCols s.entry)

/-- Calls with a proper name, mode and matrix: every row has an entry, and the entries can be printed exactly. -/
def Call.Ok (D : Set ℝ) : Call → Prop
  | .dense name m mode => Ident name ∧ (mode = "w".toList ∨ mode = "a".toList) ∧ (m.rows = 0 ∨ 0 < m.cols) ∧ ∀ i < m.rows, ∀ j < m.cols, m.at' i j ∈ D
  | .sparse name s mode => Ident name ∧ (mode = "w".toList ∨ mode = "a".toList) ∧ ∀ c ∈ s.columns, ∀ e ∈ c, e.2 ∈ D

/-- The mode of a call. -/
def Call.mode : Call → Str
  | .dense _ _ mode => mode
  | .sparse _ _ mode => mode

end TextIO
end Bembel
