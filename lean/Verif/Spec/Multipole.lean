import Mathlib.Algebra.BigOperators.Field
import Mathlib.Data.Finset.Range
/-! # Specification: Lagrange polynomials -/

namespace Bembel
namespace H2
open Finset
variable {K : Type} [Field K]

/-- Value at `t` of the Lagrange polynomial number `i` for the points `x 0, …, x (n-1)`. -/
def lagrange (x : Nat → K) (n i : Nat) (t : K) : K := ∏ j ∈ (range n).erase i, (t - x j) / (x i - x j)

/-- The first `n` points are different. -/
def Distinct (x : Nat → K) (n : Nat) : Prop := ∀ i < n, ∀ j < n, x i = x j → i = j

end H2
end Bembel
