import Verif.Model.PowInt
import Verif.Model.SurfacePoint
import Mathlib.Analysis.SpecialFunctions.Trigonometric.Basic
/-!
# `util/Sphericals.hpp`

Exact arithmetic.  Coefficient vectors are lists; an access beyond the end gives `none` (failed assertion of Eigen, undefined
behaviour without assertions).  The arrays `z1[2]`, `z2[2]`, `z3[2]`, `z1_start[2]` are pairs.  `unsigned` differences do not wrap
unless stated.  `sqrt(pi)` is exact.
-/

namespace Bembel
namespace Sph

/-- `double z[2]`. -/
abbrev Z := ℝ × ℝ

/-- The factors of the three term recursion, Sphericals.hpp l.97-101 (also l.179-183, l.264-268, l.352-356): `z3` from `z2`, `z1`
for degree `n` and order `m`; `t` is the third coordinate. -/
noncomputable def threeTerm (t : ℝ) (n m : Nat) (z1 z2 : Z) : Z :=
  let root2 := Real.sqrt ((2 * n + 1) / (((n - m : Nat) : ℝ) * ((n + m : Nat) : ℝ)))
  let rootTimesZ := Real.sqrt (2 * n - 1) * t
  let root3 := Real.sqrt ((((n + m : Nat) : ℝ) - 1) * (((n - m : Nat) : ℝ) - 1) / (2 * n - 3))
  (root2 * (rootTimesZ * z2.1 - root3 * z1.1), root2 * (rootTimesZ * z2.2 - root3 * z1.2))

/-- The second value of an order, l.91-93 (also l.161-163, l.234-236, l.325-327). -/
noncomputable def second (t : ℝ) (m : Nat) (z1 : Z) : Z :=
  let rootTimesZ := Real.sqrt (2 * m + 3) * t
  (rootTimesZ * z1.1, rootTimesZ * z1.2)

/-- The first value of the next order, l.108-110 (also l.190-192, l.278-280, l.366-368). -/
noncomputable def nextOrder (x : V3) (m : Nat) (z : Z) : Z :=
  let root2 := Real.sqrt ((2 * m + 3) / (2 * m + 2))
  (root2 * (x 0 * z.1 - x 1 * z.2), root2 * (x 0 * z.2 + x 1 * z.1))

/-- One turn of the inner loop of `evaluate_sphericals`, l.96-107; the state is `(r, z1, z2)`. -/
noncomputable def sphInner (x : V3) (cs : List ℝ) (m : Nat) (fac : ℝ) (st : ℝ × Z × Z) (n : Nat) : Option (ℝ × Z × Z) := do
  let z3 := threeTerm (x 2) n m st.2.1 st.2.2
  let c ← cs[n * (n + 1) + m]?
  some (st.1 + fac * c * z3.1, st.2.2, z3)

/-- One turn of the outer loop of `evaluate_sphericals`, l.82-111; the state is `(r, z1)`. -/
noncomputable def sphOuter (x : V3) (cs : List ℝ) (deg : Nat) (st : ℝ × Z) (m : Nat) : Option (ℝ × Z) := do
  let fac : ℝ := if m = 0 then 1 else 2
  let z2 := second (x 2) m st.2
  let c1 ← cs[m * (m + 1) + m]?
  let c2 ← cs[(m + 1) * (m + 2) + m]?
  let r := st.1 + fac * c1 * st.2.1 + fac * c2 * z2.1
  let inner ← (List.range (deg - (m + 2))).foldlM (fun s k => sphInner x cs m fac s (m + 2 + k)) (r, st.2, z2)
  some (inner.1, nextOrder x m st.2)

open scoped Classical in
/-- `evaluate_sphericals`, l.68-114. -/
noncomputable def evaluateSphericals (x : V3) (cs : List ℝ) (deg : Nat) : Option ℝ :=
  if ¬ |‖x‖ - 1| < 1e-6 then none
  else
    let z1 : Z := (0.5 / Real.sqrt Real.pi, 0)
    if deg ≤ 1 then do
      let c ← cs[0]?
      some (c * z1.1)
    else do
      let st ← (List.range (deg - 1)).foldlM (sphOuter x cs deg) (0, z1)
      let c ← cs[(deg - 1) * (deg + 1)]?
      some (st.1 + 2 * c * st.2.1)

/-- One turn of the inner loop of `evaluate_solid_sphericals`, l.173-189; the state is `(r, fac_tot, z1, z2)`. -/
noncomputable def solidInner (y : V3) (norm : ℝ) (cs : List ℝ) (grad : Bool) (m : Nat) (fac : ℝ) (st : ℝ × ℝ × Z × Z) (n : Nat) :
    Option (ℝ × ℝ × Z × Z) := do
  let facTot := if grad then fac * n * powInt norm (n - 1) else st.2.1 * norm
  let z3 := threeTerm (y 2) n m st.2.2.1 st.2.2.2
  let c ← cs[n * (n + 1) + m]?
  some (st.1 + facTot * c * z3.1, facTot, st.2.2.2, z3)

/-- One turn of the outer loop of `evaluate_solid_sphericals`, l.146-193; the state is `(r, fac, fac_tot, z1)`.  `m - 1` for
`m = 0` is `UINT_MAX`, which becomes the `int` `-1`. -/
noncomputable def solidOuter (y : V3) (norm : ℝ) (cs : List ℝ) (deg : Nat) (grad : Bool) (st : ℝ × ℝ × ℝ × Z) (m : Nat) :
    Option (ℝ × ℝ × ℝ × Z) := do
  let fac : ℝ := if m = 0 then 1 else 2
  let z1 := st.2.2.2
  let facTot1 := if grad then fac * m * powInt norm ((m : Int) - 1) else fac * powInt norm m
  let z2 := second (y 2) m z1
  let c1 ← cs[m * (m + 1) + m]?
  let facTot2 := if grad then fac * (m + 1) * powInt norm m else facTot1 * norm
  let c2 ← cs[(m + 1) * (m + 2) + m]?
  let r := st.1 + facTot1 * c1 * z1.1 + facTot2 * c2 * z2.1
  let inner ← (List.range (deg - (m + 2))).foldlM (fun s k => solidInner y norm cs grad m fac s (m + 2 + k)) (r, facTot2, z1, z2)
  some (inner.1, fac, inner.2.1, nextOrder y m z1)

/-- `evaluate_solid_sphericals`, l.128-202.  `x / norm` for `x = 0` is the zero vector in the model (not a number in the code).
`fac` and `fac_tot` are uninitialised before the loop, which is executed at least once where they are used. -/
noncomputable def evaluateSolidSphericals (x : V3) (cs : List ℝ) (deg : Nat) (grad : Bool) : Option ℝ :=
  let z1 : Z := (0.5 / Real.sqrt Real.pi, 0)
  if grad = true ∧ deg ≤ 1 then some 0
  else if grad = false ∧ deg ≤ 1 then do
    let c ← cs[0]?
    some (c * z1.1)
  else do
    let norm := ‖x‖
    let y : V3 := (1 / norm) • x
    let st ← (List.range (deg - 1)).foldlM (solidOuter y norm cs deg grad) (0, 0, 0, z1)
    let facTot := if grad then st.2.1 * deg * powInt norm ((deg : Int) - 1) else st.2.2.1 * norm
    let c ← cs[(deg - 1) * (deg + 1)]?
    some (st.1 + facTot * c * st.2.2.2.1)

/-- `Vector3d dr`. -/
abbrev T3 := ℝ × ℝ × ℝ

/-- One turn of the inner loop of `evaluate_dsphericals`, l.263-277; the state is `(dr, z1, z2)`. -/
noncomputable def dsphInner (x : V3) (cs : List ℝ) (m : Nat) (fac : ℝ) (st : T3 × Z × Z) (n : Nat) : Option (T3 × Z × Z) := do
  let z3 := threeTerm (x 2) n m st.2.1 st.2.2
  let c ← cs[n * (n + 1) + m]?
  let d ← cs[n * (n + 1) + (m - 1)]?
  let dr := st.1
  some ((dr.1 + 2 * m * (c * z3.1), dr.2.1 - 2 * m * (c * z3.2),
    dr.2.2 + fac * Real.sqrt (((n + m : Nat) : ℝ) * ((n - m + 1 : Nat) : ℝ)) * (d * z3.1)), st.2.2, z3)

/-- One turn of the outer loop of `evaluate_dsphericals`, l.231-281; the state is `(dr, z1)`. -/
noncomputable def dsphOuter (x : V3) (cs : List ℝ) (deg : Nat) (st : T3 × Z) (m : Nat) : Option (T3 × Z) := do
  let z1 := st.2
  let z2 := second (x 2) m z1
  let c1 ← cs[m * (m + 1) + m]?
  let c2 ← cs[(m + 1) * (m + 2) + m]?
  let dr0 := st.1.1 + 2 * m * (c1 * z1.1) + 2 * m * (c2 * z2.1)
  let dr1 := st.1.2.1 - 2 * m * (c1 * z1.2) - 2 * m * (c2 * z2.2)
  let d1 ← cs[m * (m + 1) + (m - 1)]?
  let d2 ← cs[(m + 1) * (m + 2) + (m - 1)]?
  let e1 ← cs[m * (m + 1) - (m - 1)]?
  let e2 ← cs[(m + 1) * (m + 2) - (m - 1)]?
  let fac : ℝ := if m = 1 then 1 else 2
  let dr2 := if m = 1 then
      st.1.2.2 + fac * Real.sqrt (2 * m) * (d1 * z1.1 + e1 * z1.2) + fac * Real.sqrt (4 * m + 2) * (d2 * z2.1 + e2 * z2.2)
    else st.1.2.2 + fac * Real.sqrt (2 * m) * (d1 * z1.1) + fac * Real.sqrt (4 * m + 2) * (d2 * z2.1)
  let inner ← (List.range (deg - (m + 2))).foldlM (fun s k => dsphInner x cs m fac s (m + 2 + k)) ((dr0, dr1, dr2), z1, z2)
  some (inner.1, nextOrder x m z1)

open scoped Classical in
/-- `evaluate_dsphericals`, l.213-291; for `deg = 0` the bound `deg - 1` wraps and the loop runs out of the coefficients.  The
accesses of l.250, l.253 are modelled for every order (they are in range whenever the other ones are). -/
noncomputable def evaluateDsphericals (x : V3) (cs : List ℝ) (deg : Nat) : Option T3 :=
  if ¬ |‖x‖ - 1| < 1e-6 then none
  else
    let z1 : Z := (Real.sqrt (0.375 / Real.pi), 0)
    if deg = 1 then some (0, 0, 0)
    else if deg = 0 then none
    else do
      let st ← (List.range (deg - 2)).foldlM (fun s k => dsphOuter x cs deg s (1 + k)) ((0, 0, 0), z1)
      let c ← cs[(deg - 1) * (deg + 1)]?
      let d ← cs[deg * (deg - 1) + (deg - 2)]?
      let e ← cs[deg * (deg - 1) - (deg - 2)]?
      let z := st.2
      let dr := st.1
      some (dr.1 + ((deg - 1 : Nat) : ℝ) * (2 * c * z.1), dr.2.1 - ((deg - 1 : Nat) : ℝ) * (2 * c * z.2),
        dr.2.2 + 2 * Real.sqrt (2 * ((deg - 1 : Nat) : ℝ)) * (d * z.1 + e * z.2))

/-- One turn of the inner loop of `evaluate_dsolid_sphericals`, l.350-365; the state is `(dr, r_n3, z1, z2)`. -/
noncomputable def dsolidInner (y : V3) (norm : ℝ) (cs : List ℝ) (m : Nat) (fac : ℝ) (st : T3 × ℝ × Z × Z) (n : Nat) :
    Option (T3 × ℝ × Z × Z) := do
  let rn3 := st.2.1 * norm
  let z3 := threeTerm (y 2) n m st.2.2.1 st.2.2.2
  let c ← cs[n * (n + 1) + m]?
  let d ← cs[n * (n + 1) + (m - 1)]?
  let dr := st.1
  some ((dr.1 + 2 * m * rn3 * (c * z3.1), dr.2.1 - 2 * m * rn3 * (c * z3.2),
    dr.2.2 + fac * rn3 * Real.sqrt (((n + m : Nat) : ℝ) * ((n - m + 1 : Nat) : ℝ)) * (d * z3.1)), rn3, st.2.2.2, z3)

/-- One turn of the outer loop of `evaluate_dsolid_sphericals`, l.320-369; the state is `(dr, r_n3, z1)`.  `m - 3` wraps and becomes a
negative `int`. -/
noncomputable def dsolidOuter (y : V3) (norm : ℝ) (cs : List ℝ) (deg : Nat) (st : T3 × ℝ × Z) (m : Nat) : Option (T3 × ℝ × Z) := do
  let rn3 := powInt norm ((m : Int) - 3)
  let z1 := st.2.2
  let z2 := second (y 2) m z1
  let c1 ← cs[m * (m + 1) + m]?
  let c2 ← cs[(m + 1) * (m + 2) + m]?
  let dr0 := st.1.1 + 2 * m * rn3 * (c1 * z1.1) + 2 * m * rn3 * norm * (c2 * z2.1)
  let dr1 := st.1.2.1 - 2 * m * rn3 * (c1 * z1.2) - 2 * m * rn3 * norm * (c2 * z2.2)
  let d1 ← cs[m * (m + 1) + (m - 1)]?
  let d2 ← cs[(m + 1) * (m + 2) + (m - 1)]?
  let e1 ← cs[m * (m + 1) - (m - 1)]?
  let e2 ← cs[(m + 1) * (m + 2) - (m - 1)]?
  let fac : ℝ := if m = 1 then 1 else 2
  let dr2 := if m = 1 then
      st.1.2.2 + fac * rn3 * Real.sqrt (2 * m) * (d1 * z1.1 + e1 * z1.2) + fac * rn3 * norm * Real.sqrt (4 * m + 2) * (d2 * z2.1 + e2 * z2.2)
    else st.1.2.2 + fac * rn3 * Real.sqrt (2 * m) * (d1 * z1.1) + fac * rn3 * norm * Real.sqrt (4 * m + 2) * (d2 * z2.1)
  let inner ← (List.range (deg - (m + 2))).foldlM (fun s k => dsolidInner y norm cs m fac s (m + 2 + k))
    ((dr0, dr1, dr2), rn3 * norm, z1, z2)
  some (inner.1, inner.2.1, nextOrder y m z1)

/-- `evaluate_dsolid_sphericals`, l.302-378; `junk` is the uninitialised `r_n3`, used for `deg = 2`.  `deg = 0` as in
`evaluateDsphericals`; `x / norm` for `x = 0` as in `evaluateSolidSphericals`. -/
noncomputable def evaluateDsolidSphericals (junk : ℝ) (x : V3) (cs : List ℝ) (deg : Nat) : Option T3 :=
  let z1 : Z := (Real.sqrt (0.375 / Real.pi), 0)
  let norm := ‖x‖
  let y : V3 := (1 / norm) • x
  if deg = 1 then some (0, 0, 0)
  else if deg = 0 then none
  else do
    let st ← (List.range (deg - 2)).foldlM (fun s k => dsolidOuter y norm cs deg s (1 + k)) ((0, 0, 0), junk, z1)
    let rn3 := st.2.1 * norm
    let c ← cs[(deg - 1) * (deg + 1)]?
    let d ← cs[deg * (deg - 1) + (deg - 2)]?
    let e ← cs[deg * (deg - 1) - (deg - 2)]?
    let z := st.2.2
    let dr := st.1
    some (dr.1 + ((deg - 1 : Nat) : ℝ) * rn3 * (2 * c * z.1), dr.2.1 - ((deg - 1 : Nat) : ℝ) * rn3 * (2 * c * z.2),
      dr.2.2 + 2 * rn3 * Real.sqrt (2 * ((deg - 1 : Nat) : ℝ)) * (d * z.1 + e * z.2))

/-- A vector of `size` entries: read. -/
def vget (size : Nat) (v : Nat → ℝ) (i : Nat) : Option ℝ := if i < size then some (v i) else none

/-- A vector of `size` entries: write. -/
def vput (size : Nat) (v : Nat → ℝ) (i : Nat) (a : ℝ) : Option (Nat → ℝ) :=
  if i < size then some (Function.update v i a) else none

/-- `spherical_prev`, l.463-487 (without its assertion, see `sphericalHarmonicsFull`). -/
noncomputable def sphericalPrev (x : V3) (m n : Nat) (y1 y2 : Z) : Z :=
  if m = 0 ∧ n = 0 then (0.5 / Real.sqrt Real.pi, 0)
  else if m = n then
    (Real.sqrt ((2 * m + 1) / (2 * m)) * (x 0 * y1.1 - x 1 * y2.1), Real.sqrt ((2 * m + 1) / (2 * m)) * (x 0 * y2.1 + x 1 * y1.1))
  else if m + 1 = n then (y1.1 * Real.sqrt (2 * m + 3) * x 2, y2.1 * Real.sqrt (2 * m + 3) * x 2)
  else
    (Real.sqrt ((2 * n + 1) / (((n : ℝ) - m) * (n + m))) * (Real.sqrt (2 * n - 1) * x 2 * y1.1 -
        Real.sqrt (((n + m : ℝ) - 1) * (n - m - 1) / (2 * n - 3)) * y1.2),
     Real.sqrt ((2 * n + 1) / (((n : ℝ) - m) * (n + m))) * (Real.sqrt (2 * n - 1) * x 2 * y2.1 -
        Real.sqrt (((n + m : ℝ) - 1) * (n - m - 1) / (2 * n - 3)) * y2.2))

/-- The writes of l.414-421 (also l.430-436, l.444-450): the value for order `m` and its conjugate for order `-m`. -/
def storeBoth (size n m : Nat) (tmp : Z) (st : (Nat → ℝ) × (Nat → ℝ)) : Option ((Nat → ℝ) × (Nat → ℝ)) := do
  let re ← vput size st.1 (n * n + n + m) tmp.1
  let im ← vput size st.2 (n * n + n + m) tmp.2
  if m > 0 then
    let re ← vput size re (n * n + n - m) tmp.1
    let im ← vput size im (n * n + n - m) (-tmp.2)
    some (re, im)
  else some (re, im)

/-- One turn of the inner loop, l.406-422; the state is `(real, imag)`. -/
noncomputable def fullInner (y : V3) (size n : Nat) (st : (Nat → ℝ) × (Nat → ℝ)) (m : Nat) : Option ((Nat → ℝ) × (Nat → ℝ)) := do
  let a ← vget size st.1 ((n - 1) * (n - 1) + n - 1 + m)
  let b ← vget size st.1 ((n - 2) * (n - 2) + n - 2 + m)
  let c ← vget size st.2 ((n - 1) * (n - 1) + n - 1 + m)
  let d ← vget size st.2 ((n - 2) * (n - 2) + n - 2 + m)
  storeBoth size n m (sphericalPrev y m n (a, b) (c, d)) st

/-- One turn of the outer loop, l.405-451.  The second entries of `z1`, `z2` are left over from the previous turn for the orders
`n-1` and `n`, where they are not used: `old`. -/
noncomputable def fullOuter (old : Z) (y : V3) (size : Nat) (st : (Nat → ℝ) × (Nat → ℝ)) (n : Nat) :
    Option ((Nat → ℝ) × (Nat → ℝ)) := do
  let st ← (List.range (n - 1)).foldlM (fullInner y size n) st
  let m := n - 1
  let a ← vget size st.1 (m * m + m + m)
  let c ← vget size st.2 (m * m + m + m)
  let st ← storeBoth size n m (sphericalPrev y m n (a, old.1) (c, old.2)) st
  let m := n
  let a ← vget size st.1 ((n - 1) * (n - 1) + n - 1 + n - 1)
  let c ← vget size st.2 ((n - 1) * (n - 1) + n - 1 + n - 1)
  storeBoth size n m (sphericalPrev y m n (a, old.1) (c, old.2)) st

open scoped Classical in
/-- `spherical_harmonics_full`, l.388-458: the columns of the result; `junk` is the content of fresh vectors.  `x = 0` gives `none`
(division by zero, the assertion of `spherical_prev` fails if there is more than one harmonic). -/
noncomputable def sphericalHarmonicsFull (junk : (Nat → ℝ) × (Nat → ℝ)) (old : Z) (x : V3) (N : Nat) :
    Option ((Nat → ℝ) × (Nat → ℝ)) :=
  if x = 0 then none
  else do
    let size := (N + 1) * (N + 1)
    let y : V3 := (1 / ‖x‖) • x
    let re ← vput size junk.1 0 (0.5 / Real.sqrt Real.pi)
    let im ← vput size junk.2 0 0
    (List.range N).foldlM (fun st k => fullOuter old y size st (k + 1)) (re, im)

/-- One turn of the outer loop of `legendreFull`, l.688-702. -/
noncomputable def legendreOuter (size : Nat) (t : ℝ) (L : Nat → ℝ) (n : Nat) : Option (Nat → ℝ) := do
  let s := n * (n + 1) / 2
  let L ← (List.range (n - 1)).foldlM (fun L m => do
    let a ← vget size L (n * (n - 1) / 2 + m)
    let b ← vget size L ((n - 1) * (n - 2) / 2 + m)
    vput size L (s + m) (((2 * n - 1 : Nat) * t * a - (n + m - 1 : Nat) * b) / (n - m : Nat))) L
  let m := n - 1
  let a ← vget size L (m * (m + 1) / 2 + m)
  let L ← vput size L (s + m) ((2 * m + 1 : Nat) * t * a)
  let m := n
  let a ← vget size L (n * (n - 1) / 2 + n - 1)
  vput size L (s + m) ((2 * m - 1 : Nat) * a)

/-- `legendreFull`, l.677-704. -/
noncomputable def legendreFull (junk : Nat → ℝ) (N : Nat) (t : ℝ) : Option (Nat → ℝ) := do
  let size := (N + 1) * (N + 2) / 2
  let L ← vput size junk 0 1
  let L ← vput size L 1 t
  let L ← vput size L 2 1
  (List.range (N - 1)).foldlM (fun L k => legendreOuter size t L (k + 2)) L

/-- `constant`, l.709-718, for `m ≤ n`. -/
noncomputable def constant (m n : Nat) : ℝ :=
  (List.range m).foldl (fun c i => c * (1 / Real.sqrt (((n + i + 1) * (n - i) : Nat) : ℝ))) (Real.sqrt ((2 * n + 1) / (4 * Real.pi)))

/-- `Matrix<double, 3, 2>`: three rows, the columns are real and imaginary part. -/
abbrev M32 := Z × Z × Z

/-- Multiplication by `x(0) + i x(1)`, l.563-565 (also l.568-574). -/
def mulW (x : V3) (z : Z) : Z := (x 0 * z.1 - x 1 * z.2, x 0 * z.2 + x 1 * z.1)

/-- The entries of the table of `legendreFull`, zero for orders above the degree, l.544-556. -/
noncomputable def legendreAt (size : Nat) (L : Nat → ℝ) (n m : Nat) : Option ℝ :=
  if m > n then some 0 else vget size L (n * (n + 1) / 2 + m)

/-- `dspherical_prev`, l.532-587 (without its assertion). -/
noncomputable def dsphericalPrev (x : V3) (m n : Nat) (size : Nat) (L : Nat → ℝ) : Option M32 := do
  let (z0, z2) ← (if m = 0 then do
      let b ← legendreAt size L n 1
      some (((0, 0) : Z), ((b, 0) : Z))
    else do
      let a ← legendreAt size L n m
      let b ← legendreAt size L n (m + 1)
      some ((List.range (m - 1)).foldl (fun z _ => (mulW x z.1, mulW x z.2)) (((a, 0) : Z), mulW x (b, 0))))
  let c := constant m n
  let w : Z := (z0.1 * (m * c), z0.2 * (m * c))
  some (w, (-w.2, w.1), (z2.1 * c, z2.2 * c))

/-- `functionalMatrix`, l.723-737. -/
noncomputable def functionalMatrix (z : V3) (i j : Fin 3) : ℝ :=
  let r := ‖z‖
  if i = j then r * r - z i * z i else -(z (min i j)) * z (max i j)

/-- `dsolid_spherical_prev`, l.593-672, for orders `m ≥ 0` (the only ones it is called with). -/
noncomputable def dsolidSphericalPrev (y : V3) (m n : Nat) (size : Nat) (L : Nat → ℝ) (yre yim : ℝ) : Option M32 := do
  let r := ‖y‖
  let x : V3 := (1 / r) • y
  let z ← dsphericalPrev x m n size L
  let rn3 := if n > 3 then r ^ (n - 3) else if n = 3 then 1 else (1 / r) ^ (3 - n)
  let A := functionalMatrix y
  let harm : Fin 3 → Z := fun i => (rn3 * (A i 0 * z.1.1 + A i 1 * z.2.1.1 + A i 2 * z.2.2.1),
    rn3 * (A i 0 * z.1.2 + A i 1 * z.2.1.2 + A i 2 * z.2.2.2))
  let nrn1 := if n = 0 then 0 else if n = 1 then 1 else n * r ^ (n - 1)
  let rad : Fin 3 → Z := fun i => (yre * nrn1 * x i, yim * nrn1 * x i)
  let out : Fin 3 → Z := fun i => ((harm i).1 + (rad i).1, (harm i).2 + (rad i).2)
  some (out 0, out 1, out 2)

/-- The writes of l.507-523 to a row of `reals`. -/
def storeRow (size n m : Nat) (v : Nat → ℝ) (a : ℝ) : Option (Nat → ℝ) := do
  let v ← vput size v (n * n + n + m) a
  if m > 0 then vput size v (n * n + n - m) a else some v

/-- `Dsolid_harmonics_full`, l.492-527: the rows of the result.  `val` are the columns of `spherical_val`, which must have
`(N+1)^2` rows.  The matrix `imags` is not returned and not modelled. -/
noncomputable def dsolidHarmonicsFull (junk : Nat → ℝ) (junkR : (Nat → ℝ) × (Nat → ℝ) × (Nat → ℝ)) (x : V3) (N : Nat)
    (val : (Nat → ℝ) × (Nat → ℝ)) : Option ((Nat → ℝ) × (Nat → ℝ) × (Nat → ℝ)) := do
  let L ← legendreFull junk N (x 2 / ‖x‖)
  let size := (N + 1) * (N + 1)
  (List.range (N + 1)).foldlM (fun st n => (List.range (n + 1)).foldlM (fun st m => do
    let a ← vget size val.1 (n * n + n + m)
    let b ← vget size val.2 (n * n + n + m)
    let z ← dsolidSphericalPrev x m n ((N + 1) * (N + 2) / 2) L a b
    let r0 ← storeRow size n m st.1 z.1.1
    let r1 ← storeRow size n m st.2.1 z.2.1.1
    let r2 ← storeRow size n m st.2.2 z.2.2.1
    some (r0, r1, r2)) st) junkR

end Sph
end Bembel
