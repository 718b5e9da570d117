import Mathlib.Analysis.InnerProductSpace.PiL2
import Verif.Model.Bernstein
import Verif.Model.ElementTree
/-!
# Surface points and the local shape functions of `AnsatzSpace/SuperSpace.hpp`

Exact arithmetic.  `Eigen::Vector3d` is the Euclidean space `V3`, `dot` is the inner product.  `R` is the scalar type
`LinearOperatorTraits<Derived>::Scalar`: `ℝ` or `ℂ`.  The shape function pointers `phiPhi`, ... are the functions of
`Spline/Basis.hpp` for the degree `P` (degrees 0 to `MaxP`, see C04); real arguments are converted to the scalar type.
-/

namespace Bembel

/-- `Eigen::Vector3d`. -/
abbrev V3 := EuclideanSpace ℝ (Fin 3)

/-- `a.cross(b)`. -/
def cross3 (a b : V3) : V3 := !₂[a 1 * b 2 - a 2 * b 1, a 2 * b 0 - a 0 * b 2, a 0 * b 1 - a 1 * b 0]

open scoped Classical in
/-- Eigen's `v.normalized()`: the vector itself if it is zero. -/
noncomputable def normalized (v : V3) : V3 := if 0 < ‖v‖ then (1 / ‖v‖) • v else v

/-- `SurfacePoint`, Geometry/SurfacePoint.hpp l.15-42, the 12-vector `[xi; w; Chi(xi); dsChi(xi); dtChi(xi)]`:
entries 0-1 are `xi`, 2 is `w`, 3-5 are `f`, 6-8 are `dx`, 9-11 are `dy`. -/
structure SurfPt where
  xi : ℝ × ℝ
  w : ℝ
  f : V3
  dx : V3
  dy : V3

namespace SuperSpace
open Basis

variable {R : Type} [CommRing R] [Algebra ℝ R]

/-- A point with entries converted to the scalar type. -/
def conv (R : Type) [CommRing R] [Algebra ℝ R] (s : ℝ × ℝ) : R × R := (algebraMap ℝ R s.1, algebraMap ℝ R s.2)

/-- `basis`, SuperSpace.hpp l.309-316. -/
def basis (junk : Nat → R) (P : Nat) (s : ℝ × ℝ) : Nat → R := phiPhi junk P (fun _ => 0) 1 (conv R s)

/-- `basisDx`, SuperSpace.hpp l.330-337. -/
def basisDx (junk : Nat → R) (P : Nat) (s : ℝ × ℝ) : Nat → R := phiPhiDx junk P (fun _ => 0) 1 (conv R s)

/-- `basisDy`, SuperSpace.hpp l.351-358. -/
def basisDy (junk : Nat → R) (P : Nat) (s : ℝ × ℝ) : Nat → R := phiPhiDy junk P (fun _ => 0) 1 (conv R s)

/-- `addScaledBasisInteraction`, SuperSpace.hpp l.173-178. -/
def addScaledBasisInteraction (junk : Nat → R) (P : Nat) (intval : Nat → Nat → R) (w : R) (s t : ℝ × ℝ) : Nat → Nat → R :=
  phiTimesPhi junk P intval w (conv R s) (conv R t)

/-- `basisInteraction`, SuperSpace.hpp l.183-190. -/
def basisInteraction (junk : Nat → R) (P : Nat) (s t : ℝ × ℝ) : Nat → Nat → R :=
  phiTimesPhi junk P (fun _ _ => 0) 1 (conv R s) (conv R t)

/-- Column `i` of `s_curl` resp. `t_curl`, SuperSpace.hpp l.204-211.  The entries are real numbers (converted to the scalar type
in the code). -/
noncomputable def curl (junk : Nat → ℝ) (P : Nat) (p : SurfPt) (i : Nat) : V3 :=
  (1 / ‖cross3 p.dx p.dy‖) • (-(basisDy junk P p.xi i • p.dx) + basisDx junk P p.xi i • p.dy)

/-- `addScaledSurfaceCurlInteraction`, SuperSpace.hpp l.196-217; the linear index `j * pp + i` of the matrix `intval` with `pp` rows
is entry `(i, j)`. -/
noncomputable def addScaledSurfaceCurlInteraction (junk : Nat → ℝ) (P : Nat) (intval : Nat → Nat → R) (w : R) (p1 p2 : SurfPt) :
    Nat → Nat → R :=
  let pp := (P + 1) * (P + 1)
  forLoop pp (fun c j => forLoop pp (fun c i =>
    upd2 c i j (c i j + w * algebraMap ℝ R (inner ℝ (curl junk P p1 i) (curl junk P p2 j)))) c) intval

/-- `addScaledSurfaceGradientInteraction`, SuperSpace.hpp l.223-229. -/
noncomputable def addScaledSurfaceGradientInteraction (junk : Nat → ℝ) (P : Nat) (intval : Nat → Nat → R) (w : R)
    (p1 p2 : SurfPt) : Nat → Nat → R :=
  addScaledSurfaceCurlInteraction junk P intval w p1 p2

/-- `M.block(ro, co, n, n) += B`. -/
def addBlock (n ro co : Nat) (B M : Nat → Nat → R) : Nat → Nat → R :=
  fun a b => if ro ≤ a ∧ a < ro + n ∧ co ≤ b ∧ b < co + n then M a b + B (a - ro) (b - co) else M a b

/-- `addScaledVectorBasisInteraction`, SuperSpace.hpp l.236-258. -/
noncomputable def addScaledVectorBasisInteraction (junk : Nat → R) (P : Nat) (intval : Nat → Nat → R) (w : R) (s t : ℝ × ℝ)
    (xdx xdy ydx ydy : V3) : Nat → Nat → R :=
  let pp := (P + 1) * (P + 1)
  let b := basisInteraction junk P s t
  let intval := addBlock pp 0 0 (fun i j => w * algebraMap ℝ R (inner ℝ xdx ydx) * b i j) intval
  let intval := addBlock pp 0 pp (fun i j => w * algebraMap ℝ R (inner ℝ xdx ydy) * b i j) intval
  let intval := addBlock pp pp 0 (fun i j => w * algebraMap ℝ R (inner ℝ xdy ydx) * b i j) intval
  addBlock pp pp pp (fun i j => w * algebraMap ℝ R (inner ℝ xdy ydy) * b i j) intval

/-- `addScaledVectorBasisDivergenceInteraction`, SuperSpace.hpp l.279-283. -/
def addScaledVectorBasisDivergenceInteraction (junk : Nat → R) (P : Nat) (intval : Nat → Nat → R) (w : R) (s t : ℝ × ℝ) :
    Nat → Nat → R :=
  divPhiTimesDivPhi junk P intval w (conv R s) (conv R t)

/-- `map2surface`, SuperSpace.hpp l.160-165: `st = llc + h xi`, then `updateSurfacePoint` (Geometry/Patch.hpp l.294-365) on the patch of
the element.  `geo p st` are point and tangents of patch `p` (their evaluation is modelled by `Patch.updateSurfacePoint` in
Model/Patch.lean). -/
noncomputable def map2surface (t : Mesh.Tree ℝ) (geo : Nat → ℝ × ℝ → V3 × V3 × V3) (a : Mesh.Addr) (xi : ℝ × ℝ) (w : ℝ) : SurfPt :=
  let st := ((t.llc a).1 + Mesh.getH t a * xi.1, (t.llc a).2 + Mesh.getH t a * xi.2)
  let g := geo (t.patch a) st
  ⟨xi, w, g.1, g.2.1, g.2.2⟩

end SuperSpace
end Bembel
