import Verif.Spec.Bernstein
import Mathlib.Algebra.BigOperators.Group.Finset.Basic
import Mathlib.Algebra.Field.Defs
/-! # Specification: rational tensor-product Bezier surfaces (independent of the model) -/

namespace Bembel.Spec

open Finset

variable {K : Type} [Field K]

/-- `∑_{i<px} ∑_{j<py} c i j B_i^{px-1}(s) B_j^{py-1}(t)` (orders `px`, `py`). -/
def tensorBezier (px py : Nat) (c : Nat → Nat → K) (s t : K) : K :=
  ∑ i ∈ range px, ∑ j ∈ range py, c i j * (bern (px - 1) i s * bern (py - 1) j t)

/-- Component `k` of the rational surface with homogeneous control net `P i j = (w x, w y, w z, w)`. -/
def ratBezier (px py : Nat) (P : Nat → Nat → Fin 4 → K) (s t : K) (k : Fin 3) : K :=
  tensorBezier px py (fun i j => P i j k.castSucc) s t / tensorBezier px py (fun i j => P i j 3) s t

/-- The part of a global control net that belongs to span `(ix, iy)`. -/
def subNet (px py : Nat) (P : Nat → Nat → Fin 4 → K) (ix iy : Nat) : Nat → Nat → Fin 4 → K :=
  fun i j => P (px * ix + i) (py * iy + j)

end Bembel.Spec
