import Verif.Spec.Operators
import Verif.Spec.Moments
import Verif.Spec.Multipole
import Verif.Spec.H2
import Verif.Model.Moments
/-! # Specification: which moments belong to which operator -/

namespace Bembel.Spec
open Finset Mesh H2

/-- Quadrature of the interpolation function number `s` of cluster `c` (tensor products of Lagrange polynomials, second coordinate
running fastest) times a function `g` on element `b`, in the local coordinates of `b`. -/
noncomputable def momentQuad (t : Mesh.Tree ℝ) (Q : Quad1 ℝ) (x : Nat → ℝ) (np : Nat) (c b : Addr) (s : Nat) (g : ℝ × ℝ → ℝ) : ℝ :=
  getH t b * ∑ q ∈ range Q.size, ∑ q' ∈ range Q.size, Q.w q * Q.w q' *
    (lagrange x np (s / np) (inCluster t c b (Q.xi q, Q.xi q')).1 * lagrange x np (s % np) (inCluster t c b (Q.xi q, Q.xi q')).2) *
    g (Q.xi q, Q.xi q')

/-- The moment matrices `mom` belong to the test functions `T`: for every cluster `a`, every element number `k` of this cluster, every
vector component `d`, far field component `α` and shape function `m`, the entry of the cluster basis that the moment matrix generates
is the quadrature of `T` times interpolation function `s`. -/
def MomentsFor (vd nc : Nat) (T : (P M d a i : Nat) → ℝ × ℝ → ℝ) (mom : MomentEnv → (p cl r np : Nat) → List (EMat ℝ)) : Prop :=
  ∀ (V : Type) (near : V → V → Bool) (corner : Nat → Nat → V) (P M : Nat), 0 < P → ∀ (E : MomentEnv) (junkE junkT : Nat → Nat → ℝ)
    (p np : Nat), Distinct (E.pts np) np → ∀ t : Mesh.Tree ℝ, initElementTree near corner P M = some t →
    ∀ r ≤ M, ∀ d < vd, ∃ A, (mom E p (M - r) r np)[d]? = some A ∧ A.rows = nc * (np * np) ∧ A.cols = (p + 1) * (p + 1) * 4 ^ r ∧
    ∀ l n, l + n + r = M → ∀ a, IsNode P l a → ∀ L, clusterElements t a = some L → ∀ k b, L[k]? = some b →
    ∀ α < nc, ∀ s < np * np, ∀ m < (p + 1) * (p + 1),
      clusterBasis (np * np) ((p + 1) * (p + 1) * 4 ^ r) A (computeTransferMatrices E.pts junkE junkT np) n
        (α * (np * np) + s) ((p + 1) * (p + 1) * k + m) =
      momentQuad t (E.GL (gaussIndex np p)) (E.pts np) np a b s (T p M d α m)

end Bembel.Spec
