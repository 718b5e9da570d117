import Verif.Model.Quadrature
import Verif.Model.H2Multipole
import Verif.Model.Bernstein
/-!
# Model of the moment matrices, `H2Matrix/H2Multipole.hpp`

Real scalars (for complex operators the code takes the real part of a real number).
-/

namespace Bembel
namespace H2

/-- `(int)std::ceil(0.5 * (number_of_points + polynomial_degree - 2))`, H2Multipole.hpp l.136, l.188. -/
def gaussIndex (np p : Nat) : Nat := (((np : Int) + p - 2 + 1) / 2).toNat

/-- Loops of `Moment1D::computeMoment1D`, H2Multipole.hpp l.144-164, and `Moment1DDerivative::computeMoment1D`,
l.196-216; `add` is `addScaledBasis1D` resp. `addScaledBasis1DDx`, `scale` the factor `sqrt(h * H)` resp. its inverse;
`np` is `number_of_points`, `r` is `cluster_refinements`.  `junk` is uninitialised memory. -/
noncomputable def moment1DLoop (pts : Nat → Nat → ℝ) (junk : Nat → Nat → ℝ) (Q : Quad1 ℝ)
    (add : (Nat → ℝ) → ℝ → ℝ → (Nat → ℝ)) (scale : ℝ → ℝ) (p r np : Nat) : EMat ℝ :=
  let n : Nat := 2 ^ r
  let h : ℝ := 1 / n
  let L := computeLagrangePolynomials pts np
  ⟨np, n * (p + 1), (List.range np).foldl (fun M i => (List.range n).foldl (fun M (j : Nat) =>
    let intval := (List.range Q.size).foldl (fun v k =>
      add v (scale (Q.w k) * evaluatePolynomial pts np (fun a => L.at' a i) (h * ((j : ℝ) + Q.xi k))) (Q.xi k)) (fun _ => 0)
    (List.range (p + 1)).foldl (fun M m => assign M i (j * (p + 1) + m) (intval m)) M) M) junk⟩

/-- `Moment1D::computeMoment1D`, H2Multipole.hpp l.122-165; `cl` is `cluster_level`, `GL` the Gauss-Legendre rules;
`addScaledBasis1D` is `phi`, SuperSpace.hpp l.363-366 (degrees 0 to `MaxP`, see C04). -/
noncomputable def moment1D (pts : Nat → Nat → ℝ) (junk : Nat → Nat → ℝ) (buf : Nat → ℝ) (GL : Nat → Quad1 ℝ)
    (p cl r np : Nat) : EMat ℝ :=
  let h : ℝ := 1 / (2 ^ r : Nat)
  let H : ℝ := 1 / (2 ^ cl : Nat)
  moment1DLoop pts junk (GL (gaussIndex np p)) (Basis.phi buf p) (fun w => w * Real.sqrt (h * H)) p r np

/-- `Moment1DDerivative::computeMoment1D`, H2Multipole.hpp l.174-217; `addScaledBasis1DDx` is `phiDx`,
SuperSpace.hpp l.380-383. -/
noncomputable def moment1DDerivative (pts : Nat → Nat → ℝ) (junk : Nat → Nat → ℝ) (buf : Nat → ℝ) (GL : Nat → Quad1 ℝ)
    (p cl r np : Nat) : EMat ℝ :=
  let h : ℝ := 1 / (2 ^ r : Nat)
  let H : ℝ := 1 / (2 ^ cl : Nat)
  moment1DLoop pts junk (GL (gaussIndex np p)) (Basis.phiDx buf p) (fun w => w / Real.sqrt (h * H)) p r np

/-- Assignment `v(k) = x` of a vector entry. -/
def assignV (v : Nat → Nat) (k x : Nat) : Nat → Nat := fun a => if a = k then x else v a

/-- `index_s` and `index_t`, H2Multipole.hpp l.260-276: the loops over `j` and `i`, which overwrite the two vectors while
reading them. -/
def mortonIndices (r : Nat) : (Nat → Nat) × (Nat → Nat) :=
  (List.range r).foldl (fun st j => (List.range (2 ^ (2 * j))).foldl (fun st i =>
    let s := st.1
    let t := st.2
    let s := assignV s (4 * i) (2 * s i)
    let s := assignV s (4 * i + 1) (2 * s i + 1)
    let s := assignV s (4 * i + 2) (2 * s i + 1)
    let s := assignV s (4 * i + 3) (2 * s i)
    let t := assignV t (4 * i) (2 * t i)
    let t := assignV t (4 * i + 1) (2 * t i)
    let t := assignV t (4 * i + 2) (2 * t i + 1)
    let t := assignV t (4 * i + 3) (2 * t i + 1)
    (s, t)) st) (fun _ => 0, fun _ => 0)

/-- `moment2DComputer`, H2Multipole.hpp l.224-293, for the two one-dimensional moment matrices `m1D_1`, `m1D_2`. -/
def moment2DComputer (m1D_1 m1D_2 : EMat ℝ) (junk : Nat → Nat → ℝ) (p r np : Nat) : EMat ℝ :=
  let n := 2 ^ r
  let idx := mortonIndices r
  let pp := (p + 1) * (p + 1)
  ⟨np * np, m1D_1.cols * m1D_2.cols, (List.range np).foldl (fun M i => (List.range np).foldl (fun M j =>
    (List.range (n * n)).foldl (fun M k => (List.range (p + 1)).foldl (fun M m1 => (List.range (p + 1)).foldl (fun M m2 =>
      assign M (i * np + j) (pp * k + m1 * (p + 1) + m2)
        (m1D_1.at' i (idx.1 k * (p + 1) + m2) * m1D_2.at' j (idx.2 k * (p + 1) + m1))) M) M) M) M) junk⟩

/-- `M << a, b` with two blocks below each other. -/
def vcat2 (a b : EMat ℝ) : EMat ℝ := ⟨a.rows + b.rows, a.cols, fun i j => if i < a.rows then a.at' i j else b.at' (i - a.rows) j⟩

/-- Parameters of the moment computation that do not change: points, uninitialised memory, Gauss rules. -/
structure MomentEnv where
  pts : Nat → Nat → ℝ
  junk1 : Nat → Nat → ℝ
  junk2 : Nat → Nat → ℝ
  buf : Nat → ℝ
  GL : Nat → Quad1 ℝ

/-- `moment2DComputer<Moment1D, Moment1D>`. -/
noncomputable def moment (E : MomentEnv) (p cl r np : Nat) : EMat ℝ :=
  moment2DComputer (moment1D E.pts E.junk1 E.buf E.GL p cl r np) (moment1D E.pts E.junk1 E.buf E.GL p cl r np) E.junk2 p r np

/-- `moment2DComputer<Moment1DDerivative, Moment1D>`. -/
noncomputable def momentDx (E : MomentEnv) (p cl r np : Nat) : EMat ℝ :=
  moment2DComputer (moment1DDerivative E.pts E.junk1 E.buf E.GL p cl r np) (moment1D E.pts E.junk1 E.buf E.GL p cl r np)
    E.junk2 p r np

/-- `moment2DComputer<Moment1D, Moment1DDerivative>`. -/
noncomputable def momentDy (E : MomentEnv) (p cl r np : Nat) : EMat ℝ :=
  moment2DComputer (moment1D E.pts E.junk1 E.buf E.GL p cl r np) (moment1DDerivative E.pts E.junk1 E.buf E.GL p cl r np)
    E.junk2 p r np

/-- `Moment2D::compute2DMoment`, generic version, H2Multipole.hpp l.301-318: `vd` equal matrices. -/
noncomputable def compute2DMoment (E : MomentEnv) (vd p cl r np : Nat) : List (EMat ℝ) :=
  (List.range vd).map fun _ => moment E p cl r np

/-- `Moment2D<…, LaplaceHypersingularOperator>::compute2DMoment`, Laplace/HypersingularOperator.hpp l.128-149. -/
noncomputable def compute2DMomentLaplaceHyp (E : MomentEnv) (p cl r np : Nat) : List (EMat ℝ) :=
  [vcat2 (momentDx E p cl r np) (momentDy E p cl r np)]

/-- `Moment2D<…, HelmholtzHypersingularOperator>::compute2DMoment`, Helmholtz/HypersingularOperator.hpp l.156-182. -/
noncomputable def compute2DMomentHelmholtzHyp (E : MomentEnv) (p cl r np : Nat) : List (EMat ℝ) :=
  [vcat2 (vcat2 (moment E p cl r np) (momentDx E p cl r np)) (momentDy E p cl r np)]

/-- `Moment2D<…, MaxwellSingleLayerOperator>::compute2DMoment`, Maxwell/SingleLayerOperator.hpp l.155-182. -/
noncomputable def compute2DMomentMaxwell (E : MomentEnv) (p cl r np : Nat) : List (EMat ℝ) :=
  [vcat2 (moment E p cl r np) (momentDx E p cl r np), vcat2 (moment E p cl r np) (momentDy E p cl r np)]

end H2
end Bembel
