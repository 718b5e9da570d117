import Mathlib.Analysis.Normed.Module.Basic
import Mathlib.Data.Real.Sqrt
/-!
# Model of `util/GeometryHelper.hpp` and `util/GenericMatrix.hpp`
-/

namespace Bembel
namespace Util

/-- A ball: centre and radius. -/
structure Ball (E : Type) where
  mid : E
  rad : ℝ

open scoped Classical in
/-- `computeEnclosingBall`, util/GeometryHelper.hpp l.32-52, over any real normed space (the code uses the
Euclidean norm of `Vector3d`); exact real arithmetic; division by zero is `none`. -/
noncomputable def computeEnclosingBall {E : Type} [NormedAddCommGroup E] [NormedSpace ℝ E]
    (b1 b2 : Ball E) : Option (Ball E) :=
  let z := b1.mid - b2.mid
  let norm := ‖b1.mid - b2.mid‖
  if norm + b2.rad ≤ b1.rad then some ⟨b1.mid, b1.rad⟩
  else if norm + b1.rad ≤ b2.rad then some ⟨b2.mid, b2.rad⟩
  else if norm = 0 then none
  else some ⟨(0.5 : ℝ) • (b1.mid + b2.mid + ((b1.rad - b2.rad) / norm) • z), 0.5 * (b1.rad + b2.rad + norm)⟩

/-- `GenericMatrix<T>`, util/GenericMatrix.hpp l.72-75; `default` is the value-initialised `T()`. -/
structure GMatrix (T : Type) where
  data : List (List T)
  cols : Nat
  rows : Nat

variable {T : Type} [Inhabited T]

/-- `std::vector::resize(n)`. -/
def vresize (n : Nat) (fill : α) (v : List α) : List α := v.take n ++ List.replicate (n - v.length) fill

/-- Default constructor, util/GenericMatrix.hpp l.25. -/
def GMatrix.empty : GMatrix T := ⟨[], 0, 0⟩

/-- `resize(rows, cols)`, util/GenericMatrix.hpp l.43-49. -/
def GMatrix.resize (m : GMatrix T) (rows cols : Nat) : GMatrix T :=
  ⟨(vresize cols [] m.data).map (vresize rows default), cols, rows⟩

/-- Reading `m(row, col)`, util/GenericMatrix.hpp l.57-59; out of range = `none`. -/
def GMatrix.get (m : GMatrix T) (row col : Nat) : Option T := do
  let c ← m.data[col]?
  c[row]?

/-- Assigning `m(row, col) = v`, util/GenericMatrix.hpp l.61. -/
def GMatrix.set (m : GMatrix T) (row col : Nat) (v : T) : Option (GMatrix T) := do
  let c ← m.data[col]?
  if row < c.length then some ⟨m.data.set col (c.set row v), m.cols, m.rows⟩ else none

/-- Operations on a `GenericMatrix`. -/
inductive GOp (T : Type) where
  | resize (rows cols : Nat)
  | set (row col : Nat) (v : T)

/-- One operation. -/
def GMatrix.step (m : GMatrix T) : GOp T → Option (GMatrix T)
  | .resize r c => some (m.resize r c)
  | .set r c v => m.set r c v

end Util
end Bembel
