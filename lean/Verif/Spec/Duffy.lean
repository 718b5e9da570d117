import Mathlib.MeasureTheory.Integral.Bochner.Set
import Mathlib.MeasureTheory.Measure.Lebesgue.Basic
import Verif.Model.Duffy
/-!
# Specification of the quadrature of element pairs

The integrand of a pair of elements is a function of two points of the reference square.  The coordinate transformations of
Sauter and Schwab for the three singular cases are stated here as operators on such functions.
-/

namespace Bembel
namespace Props
open Finset

/-- A point of the first and a point of the second element, in reference coordinates. -/
abbrev PointPair := (ℝ × ℝ) × (ℝ × ℝ)

/-- The four-dimensional unit cube. -/
def Cube : Set PointPair := Set.Icc 0 1

/-- The open unit square. -/
def InSquare (x : ℝ × ℝ) : Prop := 0 < x.1 ∧ x.1 < 1 ∧ 0 < x.2 ∧ x.2 < 1

variable {M : Type} [AddCommGroup M] [Module ℝ M]

/-- Quadrature over pairs of points, both with the rule `Q`. -/
def pairQuad (Q : Cubature ℝ) (G : PointPair → M) : M :=
  ∑ i ∈ range Q.size, ∑ j ∈ range Q.size, (Q.w i * Q.w j) • G (Q.xi i, Q.xi j)

/-- The routine `ev` adds the integrand `F` at two points, times the two weights: `ev (m1 x ws) (m2 y wt) v` is
`v + ws wt F(x, y)`. -/
def AddsIntegrand {SP : Type} (ev : SP → SP → M → M) (m1 m2 : ℝ × ℝ → ℝ → SP) (F : PointPair → M) : Prop :=
  ∀ x y ws wt v, ev (m1 x ws) (m2 y wt) v = v + (ws * wt) • F (x, y)

/-- Identical elements: the integrand in relative coordinates, with the determinants. -/
def transformed2 (F : PointPair → M) (p : PointPair) : M :=
  let s := p.1.1
  let t := p.1.2
  let u := p.2.1
  let v := p.2.2
  let a1 := u * (1 - s)
  let b1 := u * (1 - s) + s
  let a2 := v * (1 - s * t)
  let b2 := v * (1 - s * t) + s * t
  (s * (1 - s) * (1 - s * t)) •
    (F ((a1, a2), (b1, b2)) + F ((b1, b2), (a1, a2)) + F ((a1, b2), (b1, a2)) + F ((b1, a2), (a1, b2)) +
     F ((a2, a1), (b2, b1)) + F ((b2, b1), (a2, a1)) + F ((a2, b1), (b2, a1)) + F ((b2, a1), (a2, b1)))

/-- Common edge: both elements are parametrised such that the common edge is the first coordinate axis, in opposite
directions. -/
def transformed3 (F : PointPair → M) (p : PointPair) : M :=
  let t := p.1.1
  let s := p.1.2
  let su := s * p.2.1
  let sv := s * p.2.2
  (s ^ 2 * (1 - s)) •
    (F ((t * (1 - s), su), ((1 - t) * (1 - s), sv)) + F ((1 - t * (1 - s), su), (1 - (1 - t) * (1 - s), sv))) +
  (s ^ 2 * (1 - su)) •
    (F ((t * (1 - su), s), ((1 - t) * (1 - su), sv)) + F ((1 - t * (1 - su), s), (1 - (1 - t) * (1 - su), sv)) +
     F (((1 - t) * (1 - su), sv), (t * (1 - su), s)) + F ((1 - (1 - t) * (1 - su), sv), (1 - t * (1 - su), s)))

/-- Common vertex: both elements are parametrised such that the common vertex is the origin. -/
def transformed4 (F : PointPair → M) (p : PointPair) : M :=
  let s := p.1.1
  let st := s * p.1.2
  let su := s * p.2.1
  let sv := s * p.2.2
  s ^ 3 • (F ((s, st), (su, sv)) + F ((st, s), (su, sv)) + F ((su, sv), (s, st)) + F ((su, sv), (st, s)))

/-- The integrand in coordinates rotated by `r1` in the first and `r2` in the second element. -/
noncomputable def rotated (r1 r2 : Nat) (F : PointPair → M) (p : PointPair) : M :=
  F (Duffy.tau p.1.1 p.1.2 r1, Duffy.tau p.2.1 p.2.2 r2)

end Props
end Bembel
