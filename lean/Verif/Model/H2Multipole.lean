import Mathlib.Algebra.Field.Defs
import Mathlib.Algebra.Ring.Defs
import Mathlib.Analysis.SpecialFunctions.Trigonometric.Basic
import Verif.Model.EMat
/-!
# Model of `H2Matrix/H2Multipole.hpp`: interpolation and transfer matrices

Exact arithmetic in a field.  The template argument `InterpolationPoints` is a function `pts`: `pts n i` is entry `i` of
`InterpolationPoints(n).points_`.
-/

namespace Bembel
namespace H2

/-- `ChebychevRoots(n).points_`, H2Multipole.hpp l.25-30: entry `i` of the reversed `LinSpaced(n, 1, n)` is `n - i`. -/
noncomputable def chebychevRoots (n i : Nat) : ℝ :=
  1 / 2 * Real.cos (Real.pi / (2 * n) * (2 * ((n : ℝ) - i) - 1)) + 1 / 2

section newton
variable {K : Type} [Field K]

/-- Assignment `M(k, i) = v`. -/
def assign (M : Nat → Nat → K) (k i : Nat) (v : K) : Nat → Nat → K :=
  fun a b => if a = k ∧ b = i then v else M a b

/-- `computeLagrangePolynomials`, H2Multipole.hpp l.39-49: the loops over `i`, `j` and (downwards) `k` on one matrix. -/
def computeLagrangePolynomials (pts : Nat → Nat → K) (n : Nat) : EMat K :=
  let x := pts n
  let identity : Nat → Nat → K := fun k i => if k = i then 1 else 0
  ⟨n, n, (List.range n).foldl (fun M i =>
    (List.range' 1 (n - 1)).foldl (fun M j =>
      (List.range' j (n - j)).reverse.foldl (fun M k =>
        assign M k i ((M k i - M (k - 1) i) / (x k - x (k - j)))) M) M) identity⟩

/-- `evaluatePolynomial`, H2Multipole.hpp l.55-67, for a vector `L` of length `n` (not empty: the code reads entry
`n - 1`). -/
def evaluatePolynomial (pts : Nat → Nat → K) (n : Nat) (L : Nat → K) (xi : K) : K :=
  let x := pts n
  (List.range (n - 1)).reverse.foldl (fun r i => r * (xi - x i) + L i) (L (n - 1))

/-- The matrix `E` of `computeTransferMatrices`, H2Multipole.hpp l.94-99, `n` rows and `2 n` columns.
`junk` is uninitialised memory. -/
def transferE (pts : Nat → Nat → K) (junk : Nat → Nat → K) (n : Nat) : Nat → Nat → K :=
  let x := pts n
  let L := computeLagrangePolynomials pts n
  (List.range n).foldl (fun E j => (List.range n).foldl (fun E i =>
    let E := assign E i j (evaluatePolynomial pts n (fun k => L.at' k j) (1 / 2 * x i))
    assign E i (j + n) (evaluatePolynomial pts n (fun k => L.at' k j) (1 / 2 * x i + 1 / 2))) E) junk

/-- `permutation` in `computeTransferMatrices`, H2Multipole.hpp l.102-103. -/
def permutation (k : Nat) : Nat := [0, 3, 1, 2].getD k 0

/-- `computeTransferMatrices`, H2Multipole.hpp l.76-115. -/
def computeTransferMatrices (pts : Nat → Nat → K) (junkE junkT : Nat → Nat → K) (n : Nat) : EMat K :=
  let np2 := n * n
  let E := transferE pts junkE n
  ⟨np2, 4 * np2, (List.range 4).foldl (fun T k => (List.range n).foldl (fun T i => (List.range n).foldl (fun T ii =>
    (List.range n).foldl (fun T j => (List.range n).foldl (fun T jj =>
      assign T (j * n + jj) (i * n + ii + np2 * permutation k)
        (E i (j + k / 2 * n) * E ii (jj + k % 2 * n))) T) T) T) T) junkT⟩

/-- `interpolationPoints2D`, H2Multipole.hpp l.324-331: entry `r` is row `r` of the matrix; rows `i * n + j`. -/
def interpolationPoints2D (n : Nat) (x : Nat → K) (r : Nat) : K × K := (x (r / n), x (r % n))

end newton
end H2
end Bembel
