import Verif.Model.Knots
import Verif.Model.ElementTree
import Verif.Model.EMat
/-!
# Model of `AnsatzSpace/Projector.hpp`

Exact arithmetic.  A failed `assert` or an access out of bounds is `none`.  The linear solver of Eigen (`PartialPivLU`) is a parameter
`solve n A b` (solution of the `n x n` system `A x = b`).
-/

namespace Bembel
namespace Projector
open Mesh Spl Basis

variable {K : Type} [Field K] [LinearOrder K]

/-- `Constants::projector_tolerance`, util/Constants.hpp l.37. -/
def tolerance (K : Type) [Field K] : K := 1 / 10000

/-- `_proj_info`, Projector.hpp l.139-145; triplet `k` is `(rows[k], cols[k], vals[k])`. -/
structure Info (K : Type) where
  trips : List (Nat × Nat × K)
  numC : Nat
  numDc : Nat

/-- The interpolation system, Projector.hpp l.211-234: row `iy * masksize + ix`, column `jy * maxp + jx`.  The stack buffers of the
basis evaluation are uninitialised before every call (the code reuses them; entries beyond the degree are never read). -/
def system (junk : Nat → K) (junkM : Nat → Nat → K) (maxp : Nat) (mask : List K) : Nat → Nat → K :=
  forLoop maxp (fun S iy =>
    let valsY := handlerEvalBasis ((maxp : Int) - 1) junk (mask.getD iy 0)
    forLoop maxp (fun S ix =>
      let valsX := handlerEvalBasis ((maxp : Int) - 1) junk (mask.getD ix 0)
      forLoop maxp (fun S jy => forLoop maxp (fun S jx =>
        upd2 S (iy * mask.length + ix) (jy * maxp + jx) (valsX jx * valsY jy)) S) S) S) junkM

/-- The basis functions that do not vanish at `mid`, Projector.hpp l.259-270. -/
def nonzeroDofs (knots : List K) (dim pp1 : Nat) (mid : K) : Option (List Nat) :=
  (List.range dim).foldlM (fun out d => do
    let a ← knots[d]?
    let b ← knots[d + pp1]?
    some (if a ≤ mid ∧ b ≥ mid then out ++ [d] else out)) []

/-- The unit vector `c_coefs`, Projector.hpp l.289-292. -/
def unitVec (dim d : Nat) : List K := (List.range dim).map fun i => if i = d then 1 else 0

/-- The solution of the interpolation problem for the basis functions `dx`, `dy` on the element with lower left corner `pos`,
Projector.hpp l.279-305; `n` is the number of elements in each direction. -/
def localSolution (junk : Nat → K) (solve : Nat → (Nat → Nat → K) → (Nat → K) → Nat → K) (S : Nat → Nat → K) (mask : List K) (maxp n : Nat)
    (knotsX knotsY : List K) (dimX dimY : Nat) (pos : K × K) (dx dy : Nat) : Option (Nat → K) := do
  let lmx := mask.map fun m => pos.1 + 1 / (n : K) * m
  let lmy := mask.map fun m => pos.2 + 1 / (n : K) * m
  if ¬ ((∀ x ∈ lmx, x < 1 ∧ x > 0) ∧ ∀ y ∈ lmy, y < 1 ∧ y > 0) then none
  else
    let valsX ← deBoorAll 19 (unitVec dimX dx) knotsX lmx
    let valsY ← deBoorAll 19 (unitVec dimY dy) knotsY lmy
    let rhs := fillLoop1 mask.length (fun i => valsX.getD i 0) (fun i => valsY.getD i 0) junk
    some (solve (maxp * maxp) S rhs)

/-- The triplets of element number `k`, Projector.hpp l.242-322. -/
def elementTriplets (junk : Nat → K) (solve : Nat → (Nat → Nat → K) → (Nat → K) → Nat → K) (t : Mesh.Tree K) (S : Nat → Nat → K)
    (mask : List K) (maxp n pp1x pp1y : Nat) (knotsX knotsY : List K) (dimX dimY : Nat) (a : Addr) (k : Nat) :
    Option (List (Nat × Nat × K)) := do
  let pos := t.llc a
  let h := getH t a
  let midX := pos.1 + 1 / 2 * h
  let midY := pos.2 + 1 / 2 * h
  let dofsY ← nonzeroDofs knotsY dimY pp1y midY
  let dofsX ← nonzeroDofs knotsX dimX pp1x midX
  let parts ← (dofsY.flatMap fun dy => dofsX.map fun dx => (dx, dy)).mapM fun d => do
    let sol ← localSolution junk solve S mask maxp n knotsX knotsY dimX dimY pos d.1 d.2
    some ((List.range (maxp * maxp)).filterMap fun i =>
      if |sol i| > tolerance K then
        some (k * maxp * maxp + i, t.patch a * (dimX * dimY) + dimX * d.2 + d.1, sol i)
      else none)
  some parts.flatten

/-- `makeLocalProjectionTriplets`, Projector.hpp l.165-337; `P` is the polynomial degree of the super space, `M` its refinement level,
`nP` its number of patches. -/
def makeLocalProjectionTriplets (junk : Nat → K) (junkM : Nat → Nat → K) (solve : Nat → (Nat → Nat → K) → (Nat → K) → Nat → K)
    (t : Mesh.Tree K) (P M nP pp1x pp1y rep : Nat) : Option (Info K) := do
  let maxp := max pp1x pp1y
  if maxp ≠ P + 1 then none
  else
    let minp := min pp1x pp1y
    let rep := if maxp ≤ rep then minp else rep
    let n := 2 ^ M
    if maxp - minp > 1 then none
    else
      let knotsX : List K := makeUniformKnotVector pp1x (n - 1) rep
      let knotsY : List K := makeUniformKnotVector pp1y (n - 1) rep
      let dimX := knotsX.length - pp1x
      let dimY := knotsY.length - pp1y
      let mask : List K := makeInterpolationMask maxp
      if mask.length ≠ maxp then none
      else
        let S := system junk junkM maxp mask
        let els ← Mesh.elements t
        let parts ← els.zipIdx.mapM fun e =>
          elementTriplets junk solve t S mask maxp n pp1x pp1y knotsX knotsY dimX dimY e.1 e.2
        some { trips := parts.flatten, numC := dimX * dimY * nP, numDc := maxp * maxp * n * n * nP }

/-- `SparseMatrix::setFromTriplets`: values at the same position are added; an index out of range is an error. -/
def setFromTriplets (rows cols : Nat) (l : List (Nat × Nat × K)) : Option (EMat K) :=
  if l.all (fun x => decide (x.1 < rows) && decide (x.2.1 < cols)) then
    some ⟨rows, cols, fun i j => (l.map fun x => if x.1 = i ∧ x.2.1 = j then x.2.2 else 0).sum⟩
  else none

/-- `makeMatrix` for discontinuous spaces, Projector.hpp l.412-430. -/
def makeMatrixDisc (junk : Nat → K) (junkM : Nat → Nat → K) (solve : Nat → (Nat → Nat → K) → (Nat → K) → Nat → K) (t : Mesh.Tree K)
    (P M nP rep : Nat) : Option (EMat K) := do
  let info ← makeLocalProjectionTriplets junk junkM solve t P M nP (P + 1) (P + 1) rep
  setFromTriplets info.numDc info.numC info.trips

/-- `makeMatrix` for continuous spaces, Projector.hpp l.344-360. -/
def makeMatrixCont (junk : Nat → K) (junkM : Nat → Nat → K) (solve : Nat → (Nat → Nat → K) → (Nat → K) → Nat → K) (t : Mesh.Tree K)
    (P M nP rep : Nat) : Option (EMat K) :=
  if P > 0 ∧ rep ≤ P then makeMatrixDisc junk junkM solve t P M nP rep else none

/-- `makeMatrix` for div-conforming spaces, Projector.hpp l.370-404. -/
def makeMatrixDiv (junk : Nat → K) (junkM : Nat → Nat → K) (solve : Nat → (Nat → Nat → K) → (Nat → K) → Nat → K) (t : Mesh.Tree K)
    (P M nP rep : Nat) : Option (EMat K) :=
  if P > 0 ∧ rep ≤ P then do
    let info1 ← makeLocalProjectionTriplets junk junkM solve t P M nP (P + 1) P rep
    let info2 ← makeLocalProjectionTriplets junk junkM solve t P M nP P (P + 1) rep
    if info1.trips.length ≠ info2.trips.length then none
    else
      setFromTriplets (info1.numDc + info2.numDc) (info1.numC + info2.numC)
        (info1.trips ++ info2.trips.map fun x => (x.1 + info1.numDc, x.2.1 + info1.numC, x.2.2))
  else none

end Projector
end Bembel
