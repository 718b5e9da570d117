import Mathlib.Data.Real.Basic
/-! # Integer powers and the degree of the spherical harmonics expansion -/

namespace Bembel

/-- `pow_int`, util/Sphericals.hpp l.742-764.  `unsigned` arithmetic does not wrap for the exponents of `int` other than the
smallest one (its negation overflows); exact arithmetic, `1.0 / 0.0` is `0` (in C++ infinity). -/
def powInt {K : Type} [Field K] (x : K) (n : Int) : K :=
  if n = 0 then 1
  else
    let ul := if n > 0 then n.toNat else (-n).toNat
    let res := (List.range (ul - 1)).foldl (fun res _ => res * x) x
    if n > 0 then res else 1 / res

open scoped Classical in
/-- `getDegree`, HomogenisedLaplace/Coefficients.hpp l.221-229. -/
noncomputable def getDegree (precision : ℝ) : Nat :=
  if precision > 1e-4 then 4 else if precision > 1e-6 then 8 else 12

end Bembel
