import Verif.Model.Patch
import Verif.Model.EMat
import Mathlib.Algebra.Module.Pi
/-!
# Model of `Spline/DeBoorTP.hpp`, `Spline/Bezierextraction.hpp` and of the general branch of `Patch::init_Patch`

Exact arithmetic; a failed `assert` or an access out of bounds is `none`.  `Eigen::MatrixXd::inverse` is the parameter `inv n A`.
`FullPivLU::rank() == n` is modelled by its meaning, a trivial kernel.
-/

namespace Bembel
namespace Spl

open Basis

variable {K : Type} [Field K] [LinearOrder K]

/-- `DeBoor` for a matrix of control points (columns), Spline/DeBoor.hpp l.21-65. -/
def deBoorMat (M : Mat K) (knots pts : List K) : Option (Mat K) := do
  let out ← deBoorAll 20 ((List.range M.cols).map fun c => fun r => M.entry r c) knots pts
  some ⟨M.rows, pts.length, fun r c => out.getD c (fun _ => 0) r⟩

/-- `.transpose()`. -/
def transposeMat (M : Mat K) : Mat K := ⟨M.cols, M.rows, fun r c => M.entry c r⟩

/-- `DeBoorTP`, Spline/DeBoorTP.hpp l.98-107 (l.109-120 does the same for every matrix of a list). -/
def deBoorTP (M : Mat K) (knotsX knotsY ptsX ptsY : List K) : Option (Mat K) := do
  let tmp ← deBoorMat M knotsX ptsX
  deBoorMat (transposeMat tmp) knotsY ptsY

/-- `DeBoorDer` for a matrix of control points, Spline/DeBoorTP.hpp l.21-37. -/
def deBoorDerMat (M : Mat K) (knots pts : List K) : Option (Mat K) := do
  let out ← pts.mapM fun x => deBoorDer 20 ((List.range M.cols).map fun c => fun r => M.entry r c) knots x
  some ⟨M.rows, pts.length, fun r c => out.getD c (fun _ => 0) r⟩

/-- `DeBoorTPDer`, Spline/DeBoorTP.hpp l.124-137 (l.139-153 for lists of matrices). -/
def deBoorTPDer (M : Mat K) (knotsX knotsY ptsX ptsY : List K) (dx dy : Bool) : Option (Mat K) := do
  let tmp ← if dx then deBoorDerMat M knotsX ptsX else deBoorMat M knotsX ptsX
  if dy then deBoorDerMat (transposeMat tmp) knotsY ptsY else deBoorMat (transposeMat tmp) knotsY ptsY

/-- The lambda `BezBasis`, Spline/Bezierextraction.hpp l.63-75: value and the buffer `coef` left behind. -/
def bezBasis (uniq : List K) (deg pos : Nat) (pt : K) (coef : Nat → K) : Option (K × (Nat → K)) := do
  let hi ← uniq[pos / deg + 1]?
  let lo ← uniq[pos / deg]?
  if pt > hi ∨ pt < lo then some (0, coef)
  else
    let coef := upd coef (pos % deg) 1
    let out := handlerEvalCoef ((deg : Int) - 1) coef (rescale pt lo hi)
    some (out, upd coef (pos % deg) 0)

/-- The interpolation matrix, Spline/Bezierextraction.hpp l.53-91; the state is the matrix and the two coefficient buffers. -/
def bezierSystem (junk : Nat → K) (xU yU xpoint ypoint : List K) (px py nx ny : Nat) : Option (Nat → Nat → K) := do
  let cx := forLoop px (fun c i => upd c i 0) junk
  let cy := forLoop py (fun c i => upd c i 0) junk
  let st ← forOpt ny (fun st iy => forOpt nx (fun st ix => forOpt ny (fun st y => forOpt nx (fun st x => do
    let xp ← xpoint[x]?
    let bx ← bezBasis xU px ix xp st.2.1
    let yp ← ypoint[y]?
    let bY ← bezBasis yU py iy yp st.2.2
    some (upd2 st.1 (y * nx + x) (ix * ny + iy) (bx.1 * bY.1), bx.2, bY.2)) st) st) st)
    ((fun _ _ => 0 : Nat → Nat → K), cx, cy)
  some st.1

/-- The columns of `Proj`, Spline/Bezierextraction.hpp l.101-113; the state is `unit` and `Proj` (uninitialised). -/
def extractionColumns (junk : Nat → K) (solve : Nat → Nat → K) (xKnots yKnots xpoint ypoint : List K) (sizePhi sx sy : Nat) :
    Option (Nat → Nat → K) := do
  let st ← forOpt sx (fun st i => forOpt sy (fun (st : (Nat → Nat → K) × (Nat → Nat → K)) j => do
    let unit := upd2 st.1 j i 1
    let vals ← deBoorTP ⟨sy, sx, unit⟩ xKnots yKnots xpoint ypoint
    let small := Geo.unroll junk vals
    if small.length ≠ sizePhi then none
    else
      let proj := fun r c => if c = i * sy + j ∧ r < sizePhi then
        ((List.range sizePhi).map fun k => solve r k * small.getD k 0).sum else st.2 r c
      some (upd2 unit j i 0, proj)) st) ((fun _ _ => 0 : Nat → Nat → K), fun r _ => junk r)
  some st.2

open Classical in
/-- `MakeProjection`, Spline/Bezierextraction.hpp l.22-116.  `pruned(sparseTol)` is Eigen's `pruned(reference, epsilon)` with
`reference = sparseTol = 0.001` and the default `epsilon = 1e-12`, it keeps the entries larger than `reference * epsilon`; `sparseView()` drops
exact zeros only. -/
noncomputable def makeProjection (junk : Nat → K) (inv : Nat → (Nat → Nat → K) → Nat → Nat → K) (xKnots yKnots xU yU : List K) (px py : Nat) :
    Option (EMat K) := do
  let nx := (xU.length - 1) * px
  let ny := (yU.length - 1) * py
  let sizePhi := nx * ny
  let sx := xKnots.length - px
  let sy := yKnots.length - py
  let xmask : List K := makeInterpolationMask px
  let ymask : List K := makeInterpolationMask py
  let xpoint := makeInterpolationPoints xmask xU
  let ypoint := makeInterpolationPoints ymask yU
  if xmask.length * (xU.length - 1) ≠ nx ∨ xpoint.length ≠ nx ∨ ypoint.length ≠ ny then none
  else
    let A ← bezierSystem junk xU yU xpoint ypoint px py nx ny
    if ∃ y : Nat → K, (∀ r < sizePhi, ((List.range sizePhi).map fun c => A r c * y c).sum = 0) ∧ ∃ c < sizePhi, y c ≠ 0 then none
    else
      let proj ← extractionColumns junk (inv sizePhi A) xKnots yKnots xpoint ypoint sizePhi sx sy
      some ⟨sizePhi, sx * sy, fun r c => if |proj r c| > 1 / 1000 * (1 / 1000000000000) then proj r c else 0⟩

end Spl

namespace Geo
open Spl

variable {K : Type} [Field K] [LinearOrder K]

/-- `init_Patch` with both branches, Geometry/Patch.hpp l.63-104.  Factors of the product `Unroll(xyzw[i]).transpose() * phi.transpose()`
of different sizes are an error. -/
noncomputable def initPatchGeneral (junk : Nat → K) (inv : Nat → (Nat → Nat → K) → Nat → Nat → K) (xyzw : Nat → Mat K) (xKnots yKnots : List K) :
    Option (Patch K) := do
  let cols := (xyzw 0).cols
  let rows := (xyzw 0).rows
  let ux ← extractUniqueKnotVector xKnots
  let uy ← extractUniqueKnotVector yKnots
  let xnumpatch := ux.length - 1
  let ynumpatch := uy.length - 1
  if xKnots.length < cols ∨ yKnots.length < rows then none
  else
    let px := xKnots.length - cols
    let py := yKnots.length - rows
    let size := 4 * (px * xnumpatch * py * ynumpatch)
    if ux.length = 2 ∧ uy.length = 2 then
      let data ← forOpt 4 (fun data i => scatter size i (unroll junk (xyzw i)) data) (fun _ => 0)
      some ⟨(List.range size).map data, px, py, ux, uy⟩
    else
      let phi ← makeProjection junk inv xKnots yKnots ux uy px py
      let data ← forOpt 4 (fun data i =>
        let v := unroll junk (xyzw i)
        if v.length ≠ phi.cols then none
        else scatter size i ((List.range phi.rows).map fun r =>
          ((List.range phi.cols).map fun c => v.getD c 0 * phi.at' r c).sum) data) (fun _ => 0)
      some ⟨(List.range size).map data, px, py, ux, uy⟩

end Geo
end Bembel
