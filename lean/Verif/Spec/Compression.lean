import Mathlib.Analysis.Calculus.IteratedDeriv.Defs
import Mathlib.Analysis.RCLike.Basic
import Verif.Spec.H2Init
import Verif.Spec.Square
import Verif.Spec.Mesh
import Verif.Model.H2Multipole
import Verif.Model.ElementTreeSurface
/-! # Specification: smoothness of kernels, flat patches, size of quadratures -/

namespace Bembel.Spec
open Finset H2

variable {R : Type} [RCLike R]

/-- `g` is `n` times continuously differentiable on the unit interval, and the `n`-th derivative is bounded by `D`. -/
def DerivBound (n : Nat) (g : ℝ → R) (D : ℝ) : Prop :=
  ContDiffOn ℝ n g (Set.Icc 0 1) ∧ ∀ s ∈ Set.Icc (0 : ℝ) 1, ‖iteratedDerivWithin n g (Set.Icc 0 1) s‖ ≤ D

/-- A function of two points of the unit square: in each of the four coordinates the `n`-th derivative is bounded by `D`. -/
def PartialBound (n : Nat) (f : ℝ × ℝ → ℝ × ℝ → R) (D : ℝ) : Prop :=
  ∀ y z, ClosedSquare y → ClosedSquare z → DerivBound n (fun s => f (s, y.2) z) D ∧ DerivBound n (fun s => f (y.1, s) z) D ∧
    DerivBound n (fun s => f y (s, z.2)) D ∧ DerivBound n (fun s => f y (z.1, s)) D

/-- Quadrature of the modulus of `g` over the unit square, with the moduli of the weights. -/
noncomputable def absQuad (Q : Quad1 ℝ) (g : ℝ × ℝ → ℝ) : ℝ :=
  ∑ q ∈ range Q.size, ∑ q' ∈ range Q.size, |Q.w q * Q.w q'| * |g (Q.xi q, Q.xi q')|

/-- The patches are parallelograms with sides of length at most `S`, with affine parametrisations. -/
def FlatPatches (P : Nat) (geo : Nat → ℝ × ℝ → V3 × V3 × V3) (S : ℝ) : Prop :=
  ∀ p < P, ∃ o u v : V3, ‖u‖ ≤ S ∧ ‖v‖ ≤ S ∧ ∀ s, ClosedSquare s → geo p s = (o + s.1 • u + s.2 • v, u, v)

open Mesh Util in
/-- Exponential accuracy of the far field of `op` (with test and trial functions `T`) on surfaces of parallelograms.  For every mesh,
degree `p`, admissibility parameter `eta` and rate `γ > eta / 2` there is a constant `C` such that for every number `n` of interpolation
points, every quadrature rule in the unit interval with non-negative weights of sum one and every pair of clusters that satisfies the
admissibility condition, every far field entry differs from the quadrature of the integrand by at most `C γ ^ n`. -/
def ExponentialFarField (op : Operator R) (T : (P M d a i : Nat) → ℝ × ℝ → ℝ) : Prop :=
  ∀ (near : V3 → V3 → Bool) (corner : Nat → Nat → V3) (P M : Nat), 0 < P → ConformingPatches near corner P →
    ∀ (geo : Nat → ℝ × ℝ → V3 × V3 × V3), RegularPatches P geo → (∃ S, FlatPatches P geo S) → Watertight corner P (fun p s => (geo p s).1) →
    ∀ (t : Mesh.Tree ℝ), initElementTree near corner P M = some t → ∀ (junk : Nat → V3) (B0 B : Addr → Ball V3),
    computeElementEnclosings t (fun p s => (geo p s).1) junk B0 = some B → ∀ (eta γ : ℝ), 0 < eta → eta / 2 < γ → ∀ p : Nat,
    ∃ C, ∀ n : Nat, 0 < n → ∀ (Q : Quad1 ℝ), (∀ q < Q.size, 0 ≤ Q.xi q ∧ Q.xi q ≤ 1) → (∀ q < Q.size, 0 ≤ Q.w q) → ∑ q ∈ range Q.size, Q.w q = 1 →
    ∀ (jr : Nat → ℝ) (jk : Nat → R), ∀ l ≤ M, ∀ c1 c2, IsNode P l c1 → IsNode P l c2 →
    max (B c1).rad (B c2).rad < eta * (‖(B c1).mid - (B c2).mid‖ - (B c1).rad - (B c2).rad) →
    ∀ L1 L2, clusterElements t c1 = some L1 → clusterElements t c2 = some L2 → ∀ a ∈ L1, ∀ b ∈ L2, ∀ i < op.vd, ∀ j < op.vd,
    ∀ r < (p + 1) * (p + 1), ∀ c < (p + 1) * (p + 1),
    ‖farEntry t op (SuperSpace.map2surface t geo) Q (chebychevRoots n) n (T p M) c1 c2 a b i j r c -
      directEntry t op (SuperSpace.map2surface t geo) Q p M jr jk a b (i * ((p + 1) * (p + 1)) + r) (j * ((p + 1) * (p + 1)) + c)‖ ≤ C * γ ^ n

end Bembel.Spec
