import Verif.Model.Knots
import Mathlib.Algebra.Group.Pi.Basic
/-!
# Model of `Spline/Unroll.hpp`, `Geometry/Patch.hpp`

`std::vector<double>` is `List K`; reads outside the vector give `none` (undefined behaviour).
`Eigen::MatrixXd` is `Mat K` (numbers of rows and columns and an entry function).
`Eigen::Vector3d`/`double tmp[4]` are functions on `Fin 3`/`Fin 4`.  The buffers
`new double[...]` have indeterminate content before they are written; the model takes it as the arbitrary
parameter `junk`.
-/

namespace Bembel

/-- `Eigen::Matrix<T,-1,-1>`: sizes and entries (entries outside the sizes are never used). -/
structure Mat (K : Type) where
  rows : Nat
  cols : Nat
  entry : Nat → Nat → K

/-- C loop whose body may fail. -/
def forOpt {σ : Type} (n : Nat) (body : σ → Nat → Option σ) (s : σ) : Option σ :=
  (List.range n).foldlM body s

namespace Geo

open Basis Spl

variable {K : Type} [Field K] [LinearOrder K]

/-- `Unroll`, Spline/Unroll.hpp l.23-33: `out(i*ny+j) = M(j,i)` written into a vector of `nx*ny` entries. -/
def unroll (junk : Nat → K) (M : Mat K) : List K :=
  let out := forLoop M.cols (fun out i =>
    forLoop M.rows (fun out j => upd out (i * M.rows + j) (M.entry j i)) out) junk
  (List.range (M.cols * M.rows)).map out

/-- The members of `Patch`, Geometry/Patch.hpp l.371-377 (`polynomial_degree_x_` is the order, i.e.
degree plus one). -/
structure Patch (K : Type) where
  data : List K
  px : Nat
  py : Nat
  ux : List K
  uy : List K

/-- Reading `v[i]` with an `int` index. -/
def getI (v : List K) (i : Int) : Option K := if 0 ≤ i then v[i.toNat]? else none

/-- The four consecutive reads `data_[accs + k]`, `k = 0..3`, Geometry/Patch.hpp l.144. -/
def read4 (data : List K) (accs : Nat) : Option (Fin 4 → K) :=
  if accs + 3 < data.length then some (fun k => data.getD (accs + k) 0) else none

/-- `data_[j*4+i] = tmp[j]` for all `j < tmp.rows()`, with bound check, Geometry/Patch.hpp l.83 (l.98). -/
def scatter (size : Nat) (i : Nat) (tmp : List K) (data : Nat → K) : Option (Nat → K) :=
  forOpt tmp.length (fun data j => do
    let v ← tmp[j]?
    if j * 4 + i < size then some (upd data (j * 4 + i) v) else none) data

/-- `init_Patch` for input that is already in Bezier form, Geometry/Patch.hpp l.63-84. The general
branch (l.85-100) is `initPatchGeneral` in `Model/BezierExtraction.lean`; here it is `none`.
`data_.resize` value-initializes with zero. -/
def initPatch (junk : Nat → K) (xyzw : Nat → Mat K) (xKnots yKnots : List K) : Option (Patch K) := do
  let cols := (xyzw 0).cols
  let rows := (xyzw 0).rows
  let ux ← extractUniqueKnotVector xKnots
  let uy ← extractUniqueKnotVector yKnots
  let xnumpatch := ux.length - 1
  let ynumpatch := uy.length - 1
  if xKnots.length < cols ∨ yKnots.length < rows then none
  else
    let px := xKnots.length - cols
    let py := yKnots.length - rows
    let size := 4 * (px * xnumpatch * py * ynumpatch)
    if ux.length = 2 ∧ uy.length = 2 then
      let data ← forOpt 4 (fun data i => scatter size i (unroll junk (xyzw i)) data) (fun _ => 0)
      some ⟨(List.range size).map data, px, py, ux, uy⟩
    else none

/-- Double loop `tmp[k] += data_[accs+k] * (X[i]*Y[j])`, Geometry/Patch.hpp l.138-146 (l.195-212,
l.330-346; there three accumulators run in the same loop nest, they do not interact). -/
def sumTP (data : List K) (numy px py xl yl : Nat) (X Y : Nat → K) : Option (Fin 4 → K) :=
  forOpt px (fun tmp i =>
    forOpt py (fun (tmp : Fin 4 → K) j => do
      let tpbasisval := X i * Y j
      let accs := 4 * (numy * (px * xl + i) + py * yl + j)
      let d ← read4 data accs
      some fun k => tmp k + d k * tpbasisval) tmp) (fun _ => 0)

/-- `eval`, Geometry/Patch.hpp l.115-155.  `out / tmp[3]` with `tmp[3] = 0` gives infinities in C++ and
zero in the model; the property theorems show `tmp[3] ≠ 0` for positive weights. -/
def eval (junk : Nat → K) (p : Patch K) (ref : K × K) : Option (Fin 3 → K) := do
  let xl := findLocationInKnotVector ref.1 p.ux
  let yl := findLocationInKnotVector ref.2 p.uy
  let numy := (p.uy.length - 1) * p.py
  let scaledx := rescale ref.1 (← getI p.ux xl) (← getI p.ux (xl + 1))
  let scaledy := rescale ref.2 (← getI p.uy yl) (← getI p.uy (yl + 1))
  let xbasis := handlerEvalBasis ((p.px : Int) - 1) junk scaledx
  let ybasis := handlerEvalBasis ((p.py : Int) - 1) junk scaledy
  let tmp ← sumTP p.data numy p.px p.py xl.toNat yl.toNat xbasis ybasis
  some fun k => tmp k.castSucc / tmp 3

/-- `evalJacobian`, Geometry/Patch.hpp l.163-232; entry `(k, c)` of the 3×2 matrix. -/
def evalJacobian (junk : Nat → K) (p : Patch K) (ref : K × K) : Option (Fin 3 → Fin 2 → K) := do
  let xl := findLocationInKnotVector ref.1 p.ux
  let yl := findLocationInKnotVector ref.2 p.uy
  let numy := (p.uy.length - 1) * p.py
  let scaledx := rescale ref.1 (← getI p.ux xl) (← getI p.ux (xl + 1))
  let scaledy := rescale ref.2 (← getI p.uy yl) (← getI p.uy (yl + 1))
  let xbasis := handlerEvalBasis ((p.px : Int) - 1) junk scaledx
  let ybasis := handlerEvalBasis ((p.py : Int) - 1) junk scaledy
  let xbasisD := handlerEvalDerBasis ((p.px : Int) - 1) junk scaledx
  let ybasisD := handlerEvalDerBasis ((p.py : Int) - 1) junk scaledy
  let tmp ← sumTP p.data numy p.px p.py xl.toNat yl.toNat xbasis ybasis
  let tmpDx ← sumTP p.data numy p.px p.py xl.toNat yl.toNat xbasisD ybasis
  let tmpDy ← sumTP p.data numy p.px p.py xl.toNat yl.toNat xbasis ybasisD
  let bot := 1 / (tmp 3 * tmp 3)
  some fun k c =>
    if c = 0 then (tmpDx k.castSucc * tmp 3 - tmp k.castSucc * tmpDx 3) * bot
    else (tmpDy k.castSucc * tmp 3 - tmp k.castSucc * tmpDy 3) * bot

/-- Eigen's `a.cross(b)`. -/
def cross (a b : Fin 3 → K) : Fin 3 → K := fun k =>
  if k = 0 then a 1 * b 2 - a 2 * b 1
  else if k = 1 then a 2 * b 0 - a 0 * b 2
  else a 0 * b 1 - a 1 * b 0

/-- `evalNormal`, Geometry/Patch.hpp l.240-244. -/
def evalNormal (junk : Nat → K) (p : Patch K) (ref : K × K) : Option (Fin 3 → K) := do
  let jac ← evalJacobian junk p ref
  some (cross (fun k => jac k 0) (fun k => jac k 1))

/-- `updateSurfacePoint`, Geometry/Patch.hpp l.294-365; the result is the 12-vector `SurfacePoint`. -/
def updateSurfacePoint (junk : Nat → K) (p : Patch K) (ref : K × K) (w : K) (xi : K × K) :
    Option (List K) := do
  let xl := findLocationInKnotVector ref.1 p.ux
  let yl := findLocationInKnotVector ref.2 p.uy
  let numy := (p.uy.length - 1) * p.py
  let scaledx := rescale ref.1 (← getI p.ux xl) (← getI p.ux (xl + 1))
  let scaledy := rescale ref.2 (← getI p.uy yl) (← getI p.uy (yl + 1))
  let xbasis := handlerEvalBasis ((p.px : Int) - 1) junk scaledx
  let ybasis := handlerEvalBasis ((p.py : Int) - 1) junk scaledy
  let xbasisD := handlerEvalDerBasis ((p.px : Int) - 1) junk scaledx
  let ybasisD := handlerEvalDerBasis ((p.py : Int) - 1) junk scaledy
  let tmp ← sumTP p.data numy p.px p.py xl.toNat yl.toNat xbasis ybasis
  let tmpDx ← sumTP p.data numy p.px p.py xl.toNat yl.toNat xbasisD ybasis
  let tmpDy ← sumTP p.data numy p.px p.py xl.toNat yl.toNat xbasis ybasisD
  let bot := 1 / tmp 3
  let botsqr := bot * bot
  some [xi.1, xi.2, w,
    tmp 0 * bot, tmp 1 * bot, tmp 2 * bot,
    (tmpDx 0 * tmp 3 - tmp 0 * tmpDx 3) * botsqr,
    (tmpDx 1 * tmp 3 - tmp 1 * tmpDx 3) * botsqr,
    (tmpDx 2 * tmp 3 - tmp 2 * tmpDx 3) * botsqr,
    (tmpDy 0 * tmp 3 - tmp 0 * tmpDy 3) * botsqr,
    (tmpDy 1 * tmp 3 - tmp 1 * tmpDy 3) * botsqr,
    (tmpDy 2 * tmp 3 - tmp 2 * tmpDy 3) * botsqr]

/-- Data of chip `(ix, iy)`, the push_back loops of `PatchShredder`, Geometry/Patch.hpp l.417-424. -/
def chipData (data : List K) (numy xp yp ix iy : Nat) : Option (List K) :=
  forOpt xp (fun out jx =>
    forOpt yp (fun (out : List K) jy => do
      let accs := 4 * (numy * (xp * ix + jx) + yp * iy + jy)
      let d ← read4 data accs
      some (out ++ [d 0, d 1, d 2, d 3])) out) []

/-- `PatchShredder(const Patch&)`, Geometry/Patch.hpp l.386-429: chip `(ix, iy)` is stored at
`index = ix*ychips+iy` of a vector of `xchips*ychips` default constructed patches. -/
def patchShredder (p : Patch K) : Option (List (Patch K)) :=
  if p.uy.length = 2 ∧ p.ux.length = 2 then some [p]
  else do
    let xchips := p.ux.length - 1
    let ychips := p.uy.length - 1
    let numy := ychips * p.py
    let out ← forOpt xchips (fun out ix =>
      forOpt ychips (fun (out : Nat → Patch K) iy => do
        let index := ix * ychips + iy
        let d ← chipData p.data numy p.px p.py ix iy
        some (upd out index ⟨d, p.px, p.py, [0, 1], [0, 1]⟩)) out) (fun _ => ⟨[], 0, 0, [], []⟩)
    some ((List.range (xchips * ychips)).map out)

/-- `PatchShredder(const std::vector<Patch>&)`, Geometry/Patch.hpp l.437-453. -/
def patchShredderAll : List (Patch K) → Option (List (Patch K))
  | [] => some []
  | p :: rest => do
    let tmp ← patchShredder p
    let out ← patchShredderAll rest
    some (tmp ++ out)

end Geo
end Bembel
