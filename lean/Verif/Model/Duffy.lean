import Mathlib.Algebra.Field.Defs
import Mathlib.Analysis.SpecialFunctions.Log.Basic
import Verif.Model.Quadrature
import Verif.Model.ElementTree
import Verif.Model.Util
/-!
# Model of the quadrature of element pairs, `DuffyTrick/*.hpp`

`SP` is the type of surface points, `M` the type of the result matrices.  `m1`, `m2` are `map2surface` for the two elements
(arguments: point of the reference square, weight), `ev p1 p2 v` is `evaluateIntegrand(super_space, p1, p2, &v)`.
-/

namespace Bembel
namespace Duffy

section
variable {K : Type} [Field K]

/-- `tau`, DuffyTrick/tau.hpp l.26-42. -/
def tau (x y : K) (thecase : Nat) : K × K :=
  match thecase with
  | 1 => (1 - y, x)
  | 2 => (1 - x, 1 - y)
  | 3 => (y, 1 - x)
  | _ => (x, y)

variable {SP M : Type} [Zero M]

/-- `integrate0`, DuffyTrick/integrate0.hpp l.22-38. -/
def integrate0 (ev : SP → SP → M → M) (q1 q2 : Nat → SP) (Q : Cubature K) : M :=
  (List.range Q.size).foldl (fun v i => (List.range Q.size).foldl (fun v j => ev (q1 i) (q2 j) v) v) 0

/-- `integrate1`, DuffyTrick/integrate1.hpp l.25-48; `h` is `e1.get_h()`. -/
def integrate1 (ev : SP → SP → M → M) (h : K) (m1 m2 : K × K → K → SP) (Q : Cubature K) : M :=
  (List.range Q.size).foldl (fun v i =>
    let qp1 := m1 (Q.xi i) (h * Q.w i)
    (List.range Q.size).foldl (fun v j =>
      let qp2 := m2 (Q.xi j) (h * Q.w j)
      ev qp1 qp2 v) v) 0

/-- Entries of the matrix `pts`, DuffyTrick/integrate2.hpp l.52, which is filled row by row: 8 columns. -/
def pts (t1 t2 t3 t4 : K) (c : Nat) : K × K :=
  ([t1, t3, t1, t3, t2, t4, t2, t4].getD c 0, [t2, t4, t4, t2, t1, t3, t3, t1].getD c 0)

/-- `integrate2`, DuffyTrick/integrate2.hpp l.27-67; both elements are `e1`. -/
def integrate2 (ev : SP → SP → M → M) (h : K) (m1 : K × K → K → SP) (Q : Cubature K) : M :=
  (List.range Q.size).foldl (fun v i =>
    let w := h * h * Q.w i * (Q.xi i).1 * (1 - (Q.xi i).1) * (1 - (Q.xi i).1 * (Q.xi i).2)
    (List.range Q.size).foldl (fun v j =>
      let t1 := (Q.xi j).1 * (1 - (Q.xi i).1)
      let t2 := (Q.xi j).2 * (1 - (Q.xi i).1 * (Q.xi i).2)
      let t3 := (Q.xi j).1 * (1 - (Q.xi i).1) + (Q.xi i).1
      let t4 := (Q.xi j).2 * (1 - (Q.xi i).1 * (Q.xi i).2) + (Q.xi i).1 * (Q.xi i).2
      (List.range 4).foldl (fun v k =>
        let qp1 := m1 (pts t1 t2 t3 t4 (2 * k)) w
        let qp2 := m1 (pts t1 t2 t3 t4 (2 * k + 1)) (Q.w j)
        let v := ev qp1 qp2 v
        ev qp2 qp1 v) v) v) 0

/-- `integrate3`, DuffyTrick/integrate3.hpp l.27-80. -/
def integrate3 (ev : SP → SP → M → M) (h : K) (m1 : K × K → K → SP) (rot1 : Nat) (m2 : K × K → K → SP) (rot2 : Nat)
    (Q : Cubature K) : M :=
  (List.range Q.size).foldl (fun v i =>
    let xi := Q.xi i
    let w := h * h * Q.w i * xi.2 * xi.2
    let t1 := xi.1 * (1 - xi.2)
    let t2 := (1 - xi.1) * (1 - xi.2)
    (List.range Q.size).foldl (fun v j =>
      let eta := (xi.2 * (Q.xi j).1, xi.2 * (Q.xi j).2)
      let t3 := xi.1 * (1 - eta.1)
      let t4 := (1 - xi.1) * (1 - eta.1)
      let v := ev (m1 (tau t1 eta.1 rot1) w) (m2 (tau t2 eta.2 rot2) (Q.w j * (1 - xi.2))) v
      let v := ev (m1 (tau (1 - t1) eta.1 rot1) w) (m2 (tau (1 - t2) eta.2 rot2) (Q.w j * (1 - xi.2))) v
      let v := ev (m1 (tau t3 xi.2 rot1) w) (m2 (tau t4 eta.2 rot2) (Q.w j * (1 - eta.1))) v
      let v := ev (m1 (tau (1 - t3) xi.2 rot1) w) (m2 (tau (1 - t4) eta.2 rot2) (Q.w j * (1 - eta.1))) v
      let v := ev (m1 (tau t4 eta.2 rot1) w) (m2 (tau t3 xi.2 rot2) (Q.w j * (1 - eta.1))) v
      ev (m1 (tau (1 - t4) eta.2 rot1) w) (m2 (tau (1 - t3) xi.2 rot2) (Q.w j * (1 - eta.1))) v) v) 0

/-- `integrate4`, DuffyTrick/integrate4.hpp l.27-64. -/
def integrate4 (ev : SP → SP → M → M) (h : K) (m1 : K × K → K → SP) (rot1 : Nat) (m2 : K × K → K → SP) (rot2 : Nat)
    (Q : Cubature K) : M :=
  (List.range Q.size).foldl (fun v i =>
    let xi := Q.xi i
    let w := h * h * Q.w i * xi.1 ^ 3
    let xi := (xi.1, xi.2 * xi.1)
    let qp1 := m1 (tau xi.1 xi.2 rot1) w
    let qp2 := m1 (tau xi.2 xi.1 rot1) w
    let qp3 := m2 (tau xi.1 xi.2 rot2) w
    let qp4 := m2 (tau xi.2 xi.1 rot2) w
    (List.range Q.size).foldl (fun v j =>
      let eta := (xi.1 * (Q.xi j).1, xi.1 * (Q.xi j).2)
      let qp5 := m2 (tau eta.1 eta.2 rot2) (Q.w j)
      let qp6 := m1 (tau eta.1 eta.2 rot1) (Q.w j)
      let v := ev qp1 qp5 v
      let v := ev qp2 qp5 v
      let v := ev qp6 qp3 v
      ev qp6 qp4 v) v) 0

/-- The loop over `rot1`, `rot2`, compareElements.hpp l.45-63, on the vertex numbers of the two elements. -/
def commonVertices (v1 v2 : Nat → Nat) : Nat × Nat × Nat :=
  match ((List.range 4).flatMap fun rot1 => (List.range 4).map fun rot2 => (rot1, rot2)).find?
      fun r => v1 r.1 == v2 r.2 with
  | some (rot1, rot2) =>
    if v1 3 = v2 ((rot2 + 1) % 4) then (3, rot2, 3)
    else if v1 ((rot1 + 1) % 4) = v2 ((rot2 + 3) % 4) then (rot1, (rot2 + 3) % 4, 3)
    else (rot1, rot2, 4)
  | none => (4, 4, 0)

end

section
variable {W : Type} [NormedAddCommGroup W]
open Util Mesh

/-- The value of `dist` for two different elements, compareElements.hpp l.35-36; `B` are midpoints and radii. -/
noncomputable def elementDist (B : Addr → Ball W) (a b : Addr) : ℝ :=
  let d := ‖(B a).mid - (B b).mid‖ - (B a).rad - (B b).rad
  if 0 ≤ d then d else 0

open scoped Classical in
/-- `compareElements`, compareElements.hpp l.23-69: the returned vector and `dist`. -/
noncomputable def compareElements (t : Mesh.Tree ℝ) (B : Addr → Ball W) (a b : Addr) : (Nat × Nat × Nat) × ℝ :=
  if a = b then ((4, 4, 2), 0)
  else
    let dist := elementDist B a b
    if dist > 0.5 / 2 ^ t.level a then ((4, 4, 0), dist)
    else (commonVertices (t.vert a) (t.vert b), dist)

end

/-- `get_FarfieldQuadratureDegree`, LinearOperator/LinearOperatorBase.hpp l.56-58; `order` is `OperatorOrder`. -/
def farfieldDegree (order : Int) (p : Nat) : Int := p - order + 1

/-- Conversion of a floating point number to `int`: truncation towards zero. -/
noncomputable def truncInt (x : ℝ) : Int := if 0 ≤ x then ⌊x⌋ else ⌈x⌉

open scoped Classical in
/-- `getNearfieldQuadratureDegree`, LinearOperatorBase.hpp l.69-89. -/
noncomputable def nearfieldDegree (order : Int) (p : Nat) (distance : ℝ) (level : Nat) : Int :=
  let distanceLog := if distance * 2 ^ level < 1 then -(level * Real.log 2) else Real.log distance
  let alpha : Int := 2 - order + 2 * p
  let numerator := ((alpha + p : Int) : ℝ) * level * Real.log 2 - ((2 - p + order : Int) : ℝ) * distanceLog
  let denominator := ((level : ℝ) + 2) * Real.log 2 + distanceLog
  truncInt (0.5 * numerator / denominator)

/-- The quadrature degree used for a pair of elements, evaluateBilinearForm.hpp l.31-38. -/
noncomputable def pairDegree (order : Int) (p : Nat) (dist : ℝ) (level : Nat) : Int :=
  let ff := farfieldDegree order p
  let nf := nearfieldDegree order p dist level
  if nf ≥ ff then nf else ff

section
variable {W : Type} [NormedAddCommGroup W] {SP M : Type} [Zero M]
open Util Mesh

/-- `evaluateBilinearForm`, evaluateBilinearForm.hpp l.21-71; `none` is a failed assertion (which is undefined behaviour or a
result that is never set if assertions are disabled).  `surf` is `map2surface`, `ffq a` are the far field quadrature nodes of
element `a`, `GS` the table of quadrature rules. -/
noncomputable def evaluateBilinearForm (order : Int) (p : Nat) (t : Mesh.Tree ℝ) (B : Addr → Ball W) (ev : SP → SP → M → M)
    (surf : Addr → ℝ × ℝ → ℝ → SP) (GS : Nat → Cubature ℝ) (ffq : Addr → Nat → SP) (a b : Addr) : Option M :=
  let cp := compareElements t B a b
  let nf := pairDegree order p cp.2 (t.level a)
  if nf < 50 then
    let Q := GS nf.toNat
    match cp.1.2.2 with
    | 0 => if nf = farfieldDegree order p then some (integrate0 ev (ffq a) (ffq b) Q)
      else some (integrate1 ev (Mesh.getH t a) (surf a) (surf b) Q)
    | 2 => some (integrate2 ev (Mesh.getH t a) (surf a) Q)
    | 3 => some (integrate3 ev (Mesh.getH t a) (surf a) cp.1.1 (surf b) cp.1.2.1 Q)
    | 4 => some (integrate4 ev (Mesh.getH t a) (surf a) cp.1.1 (surf b) cp.1.2.1 Q)
    | _ => none
  else none

/-- One turn of the loop of `computeFfieldQnodes`, farFieldQuadratureNodes.hpp l.35-44: `emplace_back`, then the writes to
`ffield_qnodes[it->id_][k]`; `none` is an access beyond the end of the vector. -/
def ffieldStep {K : Type} [Field K] (t : Mesh.Tree K) (h : K) (surf : Addr → K × K → K → SP) (Q : Cubature K)
    (v : List (List (Option SP))) (a : Addr) : Option (List (List (Option SP))) :=
  let v := v ++ [List.replicate Q.size none]
  (List.range Q.size).foldlM (fun v k => do
    let row ← v[t.id a]?
    if k < row.length then some (v.set (t.id a) (row.set k (some (surf a (Q.xi k) (h * Q.w k))))) else none) v

/-- `computeFfieldQnodes`, farFieldQuadratureNodes.hpp l.22-46; `h` is the mesh width of the first element. -/
def computeFfieldQnodes {K : Type} [Field K] (t : Mesh.Tree K) (surf : Addr → K × K → K → SP) (Q : Cubature K) :
    Option (List (List (Option SP))) := do
  let els ← Mesh.elements t
  let first ← els[0]?
  els.foldlM (ffieldStep t (Mesh.getH t first) surf Q) []

end
end Duffy
end Bembel
