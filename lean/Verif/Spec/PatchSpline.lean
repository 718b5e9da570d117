import Verif.Spec.Projector
import Verif.Spec.AnsatzSpace
/-!
# Specification: patchwise splines

A function on the patches is a family `F p : ℝ × ℝ → R` of functions on the unit square.  The break points of level `M` are the multiples of
`1 / 2 ^ M`; `patchSpline qx qy n r c` are the tensor products of the B-splines of order `qx` and `qy` with `n` elements and knots of
multiplicity `r`.
-/

namespace Bembel.Spec
open Finset Mesh Glue

variable {R : Type} [Field R] [Algebra ℝ R]

/-- `F` is, on the unit square, a linear combination of the tensor product B-splines. -/
def IsPatchSpline (qx qy n r : Nat) (F : ℝ × ℝ → R) : Prop :=
  ∃ g : Nat → R, ∀ x : ℝ × ℝ, 0 ≤ x.1 → x.1 ≤ 1 → 0 ≤ x.2 → x.2 ≤ 1 →
    F x = ∑ c ∈ range (splineDim qx n r * splineDim qy n r), patchSpline qx qy n r c x • g c

/-- Two patches with a common edge take the same values there (at all points which are not break points). -/
def MatchAcross {V : Type} (corner : Nat → Nat → V) (nP n : Nat) (F : Nat → ℝ × ℝ → R) : Prop :=
  ∀ p < nP, ∀ q < nP, p ≠ q → ∀ i < 4, ∀ k < 4, patchEdge corner p i = patchEdge corner q k →
    ∀ Y < n, ∀ s : ℝ, 0 < s → s < 1 → F p (edgePoint i ((Y + s) / n)) = F q (edgePoint k (1 - (Y + s) / n))

/-- Component `d` of the vector field on patch `p` is `F d p`: the flows out of two patches through a common edge cancel. -/
def FlowAcross {V : Type} (corner : Nat → Nat → V) (nP n : Nat) (F : Nat → Nat → ℝ × ℝ → R) : Prop :=
  ∀ p < nP, ∀ q < nP, p ≠ q → ∀ i < 4, ∀ k < 4, patchEdge corner p i = patchEdge corner q k →
    ∀ Y < n, ∀ s : ℝ, 0 < s → s < 1 →
      (outwardSign i : ℝ) • F (normalComponent i) p (edgePoint i ((Y + s) / n)) +
      (outwardSign k : ℝ) • F (normalComponent k) q (edgePoint k (1 - (Y + s) / n)) = 0

end Bembel.Spec
