import Verif.Model.Sphericals
import Verif.Model.Operators
import Verif.Model.DiscretePotential
import Verif.Model.Quadrature
/-!
# `HomogenisedLaplace/*.hpp`

Exact arithmetic.  `M_PI` is the real number pi.  The 3 by k matrices `ps_l`, `ps_f`, `ps_b` are `ps 0`, `ps 1`, `ps 2`, functions of
the column; the vectors `ex`, `ey`, `ez` are `unit 0`, `unit 1`, `unit 2`.  The three blocks of statements for the three faces differ in
these arguments and in the row offsets only and are one definition here.  The least squares solver of Eigen
(`colPivHouseholderQr().solve`) is a parameter.
-/

namespace Bembel
namespace Homog
open Sph

/-- `POINT_DEGREE`, Coefficients.hpp l.15-17. -/
def pointDegree : Nat := 20

/-- `Msquare`, Coefficients.hpp l.68, l.248. -/
def mSquare : Nat := (pointDegree + 1) * (pointDegree + 1)

/-- The values of the loop variables, Coefficients.hpp l.291-293, l.318-320. -/
def cell : List Int := [-1, 0, 1]

/-- `Eigen::Vector3d(i, j, k)`. -/
noncomputable def vec (i j k : Int) : V3 := !₂[(i : ℝ), (j : ℝ), (k : ℝ)]

/-- `k_mod`, Coefficients.hpp l.286-306. -/
noncomputable def kMod (x : V3) : ℝ :=
  let r := cell.foldl (fun r i => cell.foldl (fun r j => cell.foldl (fun r k => r + 1 / ‖x - vec i j k‖) r) r) 0
  let r := r / (4 * Real.pi)
  r + inner ℝ x x / 6

/-- `Dk_mod`, Coefficients.hpp l.312-334. -/
noncomputable def dkMod (x : V3) : V3 :=
  let r := cell.foldl (fun r i => cell.foldl (fun r j => cell.foldl (fun r k =>
    let s := x - vec i j k
    let sn := ‖s‖
    r - (1 / (sn * sn * sn)) • s) r) r) 0
  let r := (1 / (4 * Real.pi)) • r
  r + (1 / 3 : ℝ) • x

open scoped Classical in
/-- `getDegree`, Coefficients.hpp l.221-229. -/
noncomputable def getDegree (precision : ℝ) : Nat :=
  if precision > 1e-4 then 4 else if precision > 1e-6 then 8 else 12

/-- `ex`, `ey`, `ez`, Coefficients.hpp l.77-79, l.251-253. -/
noncomputable def unit : Fin 3 → V3
  | 0 => !₂[1, 0, 0]
  | 1 => !₂[0, 1, 0]
  | 2 => !₂[0, 0, 1]

/-- Columns of `ps_left`, `ps_front`, `ps_bottom`, Coefficients.hpp l.73-92; `Q` is `GS[POINT_DEGREE]`. -/
noncomputable def facePoint (Q : Cubature ℝ) (f : Fin 3) (k : Nat) : V3 :=
  let a := (Q.xi k).1 - 0.5
  let b := (Q.xi k).2 - 0.5
  match f with
  | 0 => !₂[-0.5, a, b]
  | 1 => !₂[a, -0.5, b]
  | 2 => !₂[a, b, -0.5]

/-- One of the three loops of `getDisplacement`, Coefficients.hpp l.258-263 (l.265-270, l.272-277). -/
noncomputable def displacementFace (ps : Fin 3 → Nat → V3) (f : Fin 3) (d : Nat → ℝ) : Nat → ℝ :=
  (List.range mSquare).foldl (fun d k =>
    let tmp := dkMod (ps f k) - dkMod (ps f k + unit f)
    let d := Function.update d (k + 2 * f.val * mSquare) (kMod (ps f k) - kMod (ps f k + unit f))
    Function.update d (k + (2 * f.val + 1) * mSquare) (tmp f)) d

/-- `getDisplacement`, Coefficients.hpp l.238-280; `junk` is the content of the fresh vector. -/
noncomputable def getDisplacement (junk : Nat → ℝ) (ps : Fin 3 → Nat → V3) : Nat → ℝ :=
  displacementFace ps 2 (displacementFace ps 1 (displacementFace ps 0 junk))

/-- Assignment to a block of one row. -/
def setRow (A : Nat → Nat → ℝ) (r c len : Nat) (v : Nat → ℝ) : Nat → Nat → ℝ :=
  fun i j => if i = r ∧ c ≤ j ∧ j < c + len then v (j - c) else A i j

/-- Row `f` of a matrix with three rows. -/
def row3 (f : Fin 3) (g : (Nat → ℝ) × (Nat → ℝ) × (Nat → ℝ)) : Nat → ℝ :=
  match f with
  | 0 => g.1
  | 1 => g.2.1
  | 2 => g.2.2

/-- The turn `n` of the loop over the degrees, Coefficients.hpp l.110-124 (l.137-153, l.166-182). -/
noncomputable def systemDegree (f : Fin 3) (k : Nat) (norm : ℝ) (pre pst : (Nat → ℝ) × (Nat → ℝ))
    (dpre dpst : (Nat → ℝ) × (Nat → ℝ) × (Nat → ℝ)) (A : Nat → Nat → ℝ) (n : Nat) : Nat → Nat → ℝ :=
  let scale := norm ^ n
  let diff : Nat → ℝ := fun m => scale * (pre.1 (n * n + n + m) - pst.1 (n * n + n + m))
  let difft : Nat → ℝ := fun m => row3 f dpre (n * n + n + m) - row3 f dpst (n * n + n + m)
  let diff : Nat → ℝ := fun m => if 1 ≤ m then diff m * 2 else diff m
  let difft : Nat → ℝ := fun m => if 1 ≤ m then difft m * 2 else difft m
  let A := setRow A (k + 2 * f.val * mSquare) (n * (n + 1) / 2 - 1) (n + 1) diff
  setRow A (k + (2 * f.val + 1) * mSquare) (n * (n + 1) / 2 - 1) (n + 1) difft

/-- Contents of uninitialised memory: vectors, Legendre table, gradient table, leftovers in `z1`, `z2`. -/
structure Fresh where
  vals : (Nat → ℝ) × (Nat → ℝ)
  old : Z
  leg : Nat → ℝ
  rows : (Nat → ℝ) × (Nat → ℝ) × (Nat → ℝ)
  vec : Nat → ℝ
  mat : Nat → Nat → ℝ

/-- One face in the loop over the points, Coefficients.hpp l.99-124 (l.126-153, l.155-182); `J` depends on the point, the face and the
place of the call. -/
noncomputable def systemFace (J : Bool → Fresh) (ps : Fin 3 → Nat → V3) (deg : Nat) (f : Fin 3) (k : Nat) (A : Nat → Nat → ℝ) :
    Option (Nat → Nat → ℝ) := do
  let v := ps f k
  let norm := ‖v‖
  let pre ← sphericalHarmonicsFull (J false).vals (J false).old v deg
  let pst ← sphericalHarmonicsFull (J true).vals (J true).old (v + unit f) deg
  let dpre ← dsolidHarmonicsFull (J false).leg (J false).rows v deg pre
  let dpst ← dsolidHarmonicsFull (J true).leg (J true).rows (v + unit f) deg pst
  some ((List.range deg).foldl (fun A n => systemDegree f k norm pre pst dpre dpst A (n + 1)) A)

/-- `systemMatrix`, Coefficients.hpp l.96-183. -/
noncomputable def systemMatrix (J : Nat → Fin 3 → Bool → Fresh) (junk : Nat → Nat → ℝ) (ps : Fin 3 → Nat → V3) (deg : Nat) :
    Option (Nat → Nat → ℝ) :=
  (List.range mSquare).foldlM (fun A k => do
    let A ← systemFace (J k 0) ps deg 0 k A
    let A ← systemFace (J k 1) ps deg 1 k A
    systemFace (J k 2) ps deg 2 k A) junk

/-- The loop l.361-364 of `calculateFirstCoefficient` on `cs_tmp`. -/
noncomputable def scaleCoefficients (cs : List ℝ) (deg : Nat) (norm : ℝ) (tmp : Nat → ℝ) : Nat → ℝ :=
  (List.range deg).foldl (fun tmp n' => fun i =>
    let n := n' + 1
    if n * n ≤ i ∧ i < n * n + (2 * n + 1) then norm ^ n * cs.getD i 0 else tmp i) tmp

/-- The turn `k` of the loop of `calculateFirstCoefficient`, Coefficients.hpp l.359-375; the state is `(res, cs_tmp)`. -/
noncomputable def firstStep (cs : List ℝ) (deg : Nat) (ps : Fin 3 → Nat → V3) (ws : Nat → ℝ) (st : ℝ × (Nat → ℝ)) (k : Nat) :
    Option (ℝ × (Nat → ℝ)) := do
  let norm := ‖ps 0 k‖
  let tmp := scaleCoefficients cs deg norm st.2
  let lst := (List.range cs.length).map tmp
  let s0 ← evaluateSphericals ((1 / norm) • ps 0 k) lst deg
  let s1 ← evaluateSphericals ((1 / norm) • ps 1 k) lst deg
  let s2 ← evaluateSphericals ((1 / norm) • ps 2 k) lst deg
  let res := st.1 + ws k * (kMod (ps 0 k) + s0)
  let res := res + ws k * (kMod (ps 1 k) + s1)
  let res := res + ws k * (kMod (ps 2 k) + s2)
  some (res, tmp)

/-- `calculateFirstCoefficient`, Coefficients.hpp l.346-382; `cols` is the number of points of a face. -/
noncomputable def calculateFirstCoefficient (cs : List ℝ) (deg : Nat) (ps : Fin 3 → Nat → V3) (cols : Nat) (ws : Nat → ℝ) : Option ℝ :=
  if cs.length < (deg + 1) * (deg + 1) then none
  else do
    let st ← (List.range cols).foldlM (firstStep cs deg ps ws) (0, fun _ => 0)
    let res := st.1 / 3
    let res := res + 1 / 24
    some (-2 * Real.sqrt Real.pi * res)

/-- The solver `colPivHouseholderQr().solve`: rows, columns, matrix and right hand side. -/
abbrev Solver := Nat → Nat → (Nat → Nat → ℝ) → (Nat → ℝ) → Nat → ℝ

/-- The turn `n` of the copy loop, Coefficients.hpp l.194-200. -/
def copyDegree (size : Nat) (coeffs : Nat → ℝ) (full : Nat → ℝ) (n : Nat) : Option (Nat → ℝ) := do
  let full ← vput size full (n * n + n) (coeffs (n * (n + 1) / 2))
  (List.range n).foldlM (fun full m' => do
    let m := m' + 1
    let full ← vput size full (n * n + n + m) (coeffs (n * (n + 1) / 2 + m))
    vput size full (n * n + n - m) (coeffs (n * (n + 1) / 2 + m))) full

/-- `getCoefficients`, Coefficients.hpp l.60-207, as a function of the degree; `Q` is `GS[POINT_DEGREE]`, which has to have
`Msquare` points. -/
noncomputable def coefficientsFor (J : Nat → Fin 3 → Bool → Fresh) (F : Fresh) (solve : Solver) (Q : Cubature ℝ) (deg : Nat) : Option (List ℝ) :=
  if Q.size < mSquare then none
  else do
    let ps := facePoint Q
    let displacement := getDisplacement F.vals.1 ps
    let A ← systemMatrix J F.mat ps deg
    let nc := (deg + 1) * (deg + 2) / 2
    let sol := solve (6 * mSquare) (nc - 1) A (fun i => -displacement i)
    let coeffs : Nat → ℝ := fun i => if 1 ≤ i then sol (i - 1) else 0
    let size := (deg + 1) * (deg + 1)
    let full ← vput size F.vec 0 0
    let full ← (List.range deg).foldlM (fun full n => copyDegree size coeffs full (n + 1)) full
    let c0 ← calculateFirstCoefficient ((List.range size).map full) deg ps Q.size Q.w
    let full ← vput size full 0 c0
    some ((List.range size).map full)

/-- `getCoefficients`, Coefficients.hpp l.60-207; `GaussSquare<POINT_DEGREE>` l.73-74, l.350-351. -/
noncomputable def getCoefficients (es : EigenSolver) (J : Nat → Fin 3 → Bool → Fresh) (F : Fresh) (solve : Solver) (precision : ℝ) :
    Option (List ℝ) :=
  coefficientsFor J F solve (gaussSquare es pointDegree pointDegree) (getDegree precision)

/-- `evaluateKernel`, HomogenisedLaplace/SingleLayerOperator.hpp l.124-128, HomogenisedLaplace/SingleLayerPotential.hpp l.87-91. -/
noncomputable def evaluateKernel (cs : List ℝ) (deg : Nat) (x y : V3) : Option ℝ := do
  let s ← evaluateSolidSphericals (x - y) cs deg false
  some (kMod (x - y) + s)

/-- The value of `evaluateKernel` where it is defined. -/
noncomputable def kernel (cs : List ℝ) (deg : Nat) (x y : V3) : ℝ := (evaluateKernel cs deg x y).getD 0

/-- `HomogenisedLaplaceSingleLayerOperator`, HomogenisedLaplace/SingleLayerOperator.hpp l.23-32, l.54-119. -/
noncomputable def singleLayer (cs : List ℝ) (deg : Nat) : Operator ℝ where
  order := -1
  nc := 1
  vd := 1
  integrand := fun _ junk P _ p1 p2 c =>
    let xk := ‖cross3 p1.dx p1.dy‖
    let yk := ‖cross3 p2.dx p2.dy‖
    SuperSpace.addScaledBasisInteraction junk P c (kernel cs deg p1.f p2.f * xk * yk * p1.w * p2.w) p1.xi p2.xi
  fmm := fun p1 p2 _ _ =>
    let xk := ‖cross3 p1.dx p1.dy‖
    let yk := ‖cross3 p2.dx p2.dy‖
    kernel cs deg p1.f p2.f * xk * yk

/-- `HomogenisedLaplaceSingleLayerPotential`, HomogenisedLaplace/SingleLayerPotential.hpp l.52-82. -/
noncomputable def potential {R : Type} [Field R] [Algebra ℝ R] (cs : List ℝ) (deg : Nat) : Potential.Pot R :=
  Potential.singleLayerReal (kernel cs deg)

end Homog
end Bembel
