import Verif.Model.Bernstein
import Mathlib.Algebra.Order.Field.Basic
import Mathlib.Algebra.Order.Ring.Defs
import Mathlib.Algebra.Module.Defs
/-!
# Model of `Spline/Knots.hpp`, `Spline/DeBoor.hpp`, `Spline/DeBoorTP.hpp`, `Spline/Localize.hpp`,
`Spline/Unroll.hpp`

`std::vector<double>` is `List K` for a linearly ordered field `K` (exact arithmetic).  Reading outside a
vector, a failed `assert`, or a division by zero makes the result `none`.
-/

namespace Bembel
namespace Spl

open Basis (forLoop)

variable {K : Type} [Field K] [LinearOrder K]

/-- `Constants::generic_tolerance`, util/Constants.hpp l.20 (1e-6). -/
def genericTolerance (K : Type*) [Field K] : K := 1 / 1000000

/-- `MakeBezierKnotVector`, Spline/Knots.hpp l.21-28. -/
def makeBezierKnotVector (p : Nat) : List K :=
  let out := forLoop p (fun out _ => out ++ [(0 : K)]) []
  forLoop p (fun out _ => out ++ [(1 : K)]) out

/-- `GetPolynomialDegreeFromKnotVector`, Spline/Knots.hpp l.30-41: loop `while (++i < sz)`.
`i` is the value before the increment; `fuel` bounds the remaining iterations (`sz` suffices). -/
def getPolynomialDegreeLoop (kv : List K) : Nat → Nat → Nat
  | 0, _ => 0
  | fuel + 1, i =>
    match kv[i + 1]? with
    | none => 0
    | some k => if k > 1 / 10000000 then i + 1 else getPolynomialDegreeLoop kv fuel (i + 1)

/-- `GetPolynomialDegreeFromKnotVector`, Spline/Knots.hpp l.30-41. -/
def getPolynomialDegreeFromKnotVector (kv : List K) : Nat :=
  getPolynomialDegreeLoop kv kv.length 0

/-- `MakeUniformKnotVector(polynomial_degree, interior, knotrepetition)`, Spline/Knots.hpp l.43-54
(the loop `i = 1..interior` is indexed from 0 here). -/
def makeUniformKnotVector (p interior rep : Nat) : List K :=
  let h : K := 1 / ((interior : K) + 1)
  let out := forLoop p (fun out _ => out ++ [(0 : K)]) []
  let out := forLoop interior
    (fun out i => forLoop rep (fun out _ => out ++ [((i : K) + 1) * h]) out) out
  forLoop p (fun out _ => out ++ [(1 : K)]) out

/-- The loop of `ExtractUniqueKnotVector`: `prev` is `in[i-1]`. Spline/Knots.hpp l.69-71. -/
def extractUniqueLoop : K → List K → List K
  | _, [] => []
  | prev, k :: rest =>
    if k > prev + genericTolerance K then k :: extractUniqueLoop k rest
    else extractUniqueLoop k rest

/-- `ExtractUniqueKnotVector`, Spline/Knots.hpp l.62-73; `in[0]` of an empty vector is undefined. -/
def extractUniqueKnotVector : List K → Option (List K)
  | [] => none
  | k :: rest => some (k :: extractUniqueLoop k rest)

/-- Scan loop of `FindLocationInKnotVector`, Spline/Knots.hpp l.81-84; `i` is the index of the head. -/
def findLocationLoop (x : K) (size : Nat) : Nat → List K → Int
  | i, a :: b :: rest => if a ≤ x ∧ b > x then (i : Int) else findLocationLoop x size (i + 1) (b :: rest)
  | _, _ => (size : Int) - 2

/-- `FindLocationInKnotVector`, Spline/Knots.hpp l.76-85. -/
def findLocationInKnotVector (x : K) (v : List K) : Int :=
  if x - genericTolerance K < 0 ∧ x + genericTolerance K > 0 then 0
  else findLocationLoop x v.length 0 v

/-- `Rescale`, Spline/Localize.hpp l.25-27. -/
def rescale (x a b : K) : K := if a = 0 ∧ b = 1 then x else (x - a) / (b - a)

/-- `MakeInterpolationMask`, Spline/Localize.hpp l.31-39. -/
def makeInterpolationMask (p : Nat) : List K :=
  (List.range p).map fun (i : Nat) => ((i : K) + 1) * (1 / ((p : K) + 1))

/-- `MakeInterpolationPoints`, Spline/Localize.hpp l.46-60. -/
def makeInterpolationPoints (mask : List K) : List K → List K
  | a :: b :: rest => (mask.map fun m => a + m * (b - a)) ++ makeInterpolationPoints mask (b :: rest)
  | _ => []

/-- The span search `while (knot_vector[l] <= x && l != cols) l++`, Spline/DeBoor.hpp l.38-41
(also l.82-86, l.133-137).  `fuel = cols - l`. -/
def spanLoop (knots : List K) (x : K) : Nat → Nat → Option Nat
  | fuel, l => do
    let t ← knots[l]?
    match fuel with
    | 0 => some l
    | fuel + 1 => if t ≤ x then spanLoop knots x fuel (l + 1) else some l

variable {V : Type} [AddCommGroup V] [Module K V]

/-- One pass `k` of the triangular scheme, Spline/DeBoor.hpp l.53-60 (l.99-105, l.150-161). The
result keeps the `k` updated entries; the entry `temp[k]` left behind by the code is never read again. -/
def deBoorPass (knots : List K) (x : K) (l k : Nat) (temp : List V) : Option (List V) :=
  (List.range k).mapM fun i => do
    let a ← knots[l + 1 - k + i]?
    let b ← knots[l + 1 + i]?
    if b - a = 0 then none
    else
      let w := (x - a) / (b - a)
      let t0 ← temp[i]?
      let t1 ← temp[1 + i]?
      some (w • t1 + (1 - w) • t0)

/-- The loop `for (int k = polynomial_degree; 0 != k; k--)`, Spline/DeBoor.hpp l.52-61. -/
def deBoorLoop (knots : List K) (x : K) (l : Nat) : Nat → List V → Option (List V)
  | 0, temp => some temp
  | k + 1, temp => do
    let temp' ← deBoorPass knots x l (k + 1) temp
    deBoorLoop knots x l k temp'

/-- `DeBoor` at one evaluation point, Spline/DeBoor.hpp l.21-65 (matrix version; a control "point"
is a column `control_points.col(i)`), l.67-110 (scalar version), l.112-166 (list of matrices).
`maxDeg` is the degree limit asserted by the overload: `Constants::MaxP = 20` (l.49, l.146) or 19 (l.94).
The outer loop over evaluation points treats the points independently. -/
def deBoor (maxDeg : Nat) (cp : List V) (knots : List K) (x : K) : Option V := do
  let cols := cp.length
  if knots.length < cols + 1 then none
  else
    let p := knots.length - cols - 1
    let lo ← knots[p]?
    let hi ← knots[cols + p]?
    if ¬ (lo ≤ x ∧ x ≤ hi) then none
    else
      let l1 ← spanLoop knots x cols 0
      if l1 = 0 then none
      else
        let l := l1 - 1
        if l < p ∨ cols ≤ l then none
        else if maxDeg < p then none
        else
          let temp ← deBoorLoop knots x l p ((cp.drop (l - p)).take (p + 1))
          temp[0]?

/-- `DeBoor` over all evaluation points. Spline/DeBoor.hpp l.33-63. -/
def deBoorAll (maxDeg : Nat) (cp : List V) (knots : List K) (pts : List K) : Option (List V) :=
  pts.mapM fun x => deBoor maxDeg cp knots x

/-- Control points of the derivative, `DeBoorDer`, Spline/DeBoorTP.hpp l.26-33 (l.50-62, l.79-91). -/
def deBoorDerData (cp : List V) (knots : List K) : Option (List V) :=
  if knots.length < cp.length + 1 then none
  else
    let p := knots.length - cp.length - 1
    (List.range (cp.length - 1)).mapM fun i => do
      let b ← knots[i + p + 1]?
      let a ← knots[i + 1]?
      if b - a = 0 then none
      else
        let c1 ← cp[i + 1]?
        let c0 ← cp[i]?
        some (((p : K) / (b - a)) • (c1 - c0))

/-- `DeBoorDer`, Spline/DeBoorTP.hpp l.21-37: `tempknt(knot.begin()+1, knot.end()-1)`. -/
def deBoorDer (maxDeg : Nat) (cp : List V) (knots : List K) (x : K) : Option V := do
  let temp ← deBoorDerData cp knots
  deBoor maxDeg temp (knots.tail.dropLast) x

end Spl
end Bembel
