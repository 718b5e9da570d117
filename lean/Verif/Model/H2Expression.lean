import Verif.Model.H2Product
/-!
# Model of products with expressions of H2-matrices, `H2Matrix/EigenHelper/H2DenseProduct.hpp` l.170-308, and of `H2Matrix::get_dense`

Expression templates are the type `Expr`.  Every H2-matrix of an expression is evaluated once per product; its schedule (see `Model/Omp.lean`)
and the contents of fresh memory are attached to it.  The dense part of the evaluation (`Assignment<…, add_assign_op>`) is Eigen's and is
modelled by its meaning.
-/

namespace Bembel
namespace H2

variable {K R : Type} [Field K] [CommRing R]

/-- The left factor of a product: an H2-matrix, `A + B`, `A - B` (`CwiseBinaryOp` with sum or difference, l.179-220), `beta * A`
(`CwiseBinaryOp` with product, l.225-258). -/
inductive Expr (K R : Type) where
  | mat (H : Mat K R) (S : Schedules H) (junk : Nat → Nat → R)
  | sum (a b : Expr K R)
  | diff (a b : Expr K R)
  | scale (beta : R) (a : Expr K R)

/-- `rows()`: of the transformed matrix, H2Matrix.hpp l.76-77; an expression has the size of its first matrix. -/
def Expr.rows : Expr K R → Nat
  | .mat H _ _ => H.trans.cols
  | .sum a _ => a.rows
  | .diff a _ => a.rows
  | .scale _ a => a.rows

/-- `generic_product_impl::scaleAndAddTo`, `dst += alpha * lhs * rhs`: l.192-219 for sums and differences (each `Product` is evaluated to a
temporary that starts from zero, l.303-308 and Eigen's `evalTo`), l.249-256 for multiples, l.278-289 for an H2-matrix. -/
def scaleAndAddTo : Expr K R → (rhs dst : EMat R) → (alpha : R) → Option (EMat R)
  | .mat H S junk, rhs, dst, alpha => run junk H S rhs dst alpha
  | .sum a b, rhs, dst, alpha => do
    let l ← scaleAndAddTo a rhs ⟨a.rows, rhs.cols, fun _ _ => 0⟩ 1
    let r ← scaleAndAddTo b rhs ⟨b.rows, rhs.cols, fun _ _ => 0⟩ 1
    if l.rows = r.rows ∧ l.cols = r.cols ∧ dst.rows = l.rows ∧ dst.cols = l.cols then
      some ⟨dst.rows, dst.cols, fun i j => dst.at' i j + alpha * (l.at' i j + r.at' i j)⟩
    else none
  | .diff a b, rhs, dst, alpha => do
    let l ← scaleAndAddTo a rhs ⟨a.rows, rhs.cols, fun _ _ => 0⟩ 1
    let r ← scaleAndAddTo b rhs ⟨b.rows, rhs.cols, fun _ _ => 0⟩ 1
    if l.rows = r.rows ∧ l.cols = r.cols ∧ dst.rows = l.rows ∧ dst.cols = l.cols then
      some ⟨dst.rows, dst.cols, fun i j => dst.at' i j + alpha * (l.at' i j - r.at' i j)⟩
    else none
  | .scale beta a, rhs, dst, alpha => scaleAndAddTo a rhs dst (alpha * beta)

/-- `lhs * rhs`: `product_evaluator`, l.294-308, with Eigen's `evalTo` (`dst.setZero(); scaleAndAddTo(dst, lhs, rhs, 1)`). -/
def product (e : Expr K R) (rhs : EMat R) : Option (EMat R) := scaleAndAddTo e rhs ⟨e.rows, rhs.cols, fun _ _ => 0⟩ 1

/-- `get_dense`, H2Matrix.hpp l.254-264; `S i` is the schedule of the product with the `i`-th unit vector, `junk` the contents of `dense`. -/
def getDense (H : Mat K R) (S : Nat → Schedules H) (mem : Nat → Nat → Nat → R) (junk : Nat → Nat → R) : Option (EMat R) :=
  (List.range H.trans.cols).foldlM (fun (dense : EMat R) i => do
    let v ← product (.mat H (S i) (mem i)) ⟨H.trans.cols, 1, fun k _ => if k = i then 1 else 0⟩
    dense.setBlock 0 i H.trans.cols 1 v) ⟨H.trans.cols, H.trans.cols, junk⟩

end H2
end Bembel
