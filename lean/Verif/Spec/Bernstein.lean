import Mathlib.Data.Nat.Choose.Basic
import Mathlib.Algebra.Ring.Defs
/-! # Specification: Bernstein polynomials (independent of the model) -/

namespace Bembel.Spec

/-- The `i`-th Bernstein polynomial of degree `p` at `x`: `C(p,i) x^i (1-x)^(p-i)`. -/
def bern {K : Type*} [CommRing K] (p i : Nat) (x : K) : K :=
  (p.choose i : K) * x ^ i * (1 - x) ^ (p - i)

end Bembel.Spec
