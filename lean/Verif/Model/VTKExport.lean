import Verif.Spec.Text
import Verif.Model.EMat
import Verif.Model.SurfacePoint
import Verif.Model.ElementTreeSurface
/-!
# Model of the VTK output: `IO/VTKSurfaceExport.hpp`, `IO/VTKDomainExport.hpp`, `IO/VTKPointExport.hpp`

A file is its sequence of characters; opening a file for writing succeeds and discards its old content.  The formatting of numbers is a
parameter.  Real arithmetic is exact; `int` and `uint32_t` are natural numbers (fewer than 2^31 elements or points).
-/

namespace Bembel
namespace Vtk

open Mesh

/-- Number formatting: `operator<<` of a stream with default flags, `std::scientific` with precision 6 (VTKSurfaceExport.hpp l.233-238),
`std::to_string(double)`, and integers. -/
structure Formats where
  real : ℝ → Str
  sci : ℝ → Str
  fixed : ℝ → Str
  int : Int → Str

variable {α : Type}

/-- Right aligned output of a coefficient (`s.width(width)`). -/
def padLeft (width : Nat) (s : Str) : Str := List.replicate (width - s.length) ' ' ++ s

/-- `operator<<` of Eigen for a matrix with the default format: columns aligned to the widest coefficient, separated by a blank, rows
separated by a line break; nothing for an empty matrix. -/
def eigenPrint (fmt : α → Str) (m : EMat α) : Str :=
  let strs := (List.range m.rows).map fun i => (List.range m.cols).map fun j => fmt (m.at' i j)
  let width := (strs.flatten.map List.length).foldl max 0
  if m.rows = 0 ∨ m.cols = 0 then []
  else ['\n'].intercalate (strs.map fun row => [' '].intercalate (row.map (padLeft width)))

/-- `addDataSet_`, VTKSurfaceExport.hpp l.224-246, VTKDomainExport.hpp l.115-136, and `addDataSet`, VTKPointExport.hpp l.40-56 (there with
`std::to_string`): the string that is appended to `additionalData`.  `none`: the assertion on the columns fails. -/
def dataArray (int : Int → Str) (fmt : ℝ → Str) (name : Str) (mat : EMat ℝ) : Option Str :=
  if mat.cols = 1 ∨ mat.cols = 3 then
    some ("<DataArray type=\"Float32\" Name=\"".toList ++ name ++ "\" NumberOfComponents=\"".toList ++ int mat.cols ++ "\" format=\"ascii\">\n".toList ++
      ((List.range mat.rows).flatMap fun i => ((List.range mat.cols).flatMap fun j => fmt (mat.at' i j) ++ [' ']) ++ ['\n']) ++
      "</DataArray>\n".toList)
  else none

/-! ## Surfaces -/

/-- The loops over all elements that write row `id_` of a matrix with one row per element, VTKSurfaceExport.hpp l.41-51 and `getData_`,
l.249-301: `f` is evaluated for the patch and the midpoint of the element. -/
noncomputable def cellData (t : Mesh.Tree ℝ) (junk : Nat → α) (f : Nat → ℝ × ℝ → α) : Option (Nat → α) := do
  let l ← elements t
  l.foldlM (fun d a => if t.id a < t.nElements then some (upd d (t.id a) (f (t.patch a) (referenceMidpoint t a))) else none) junk

/-- The functions accepted by the overloads of `addDataSet`, l.57-132: on patches or in space, real or complex, scalars or vectors. -/
inductive Fun where
  | real (f : Nat → ℝ × ℝ → ℝ)
  | complex (f : Nat → ℝ × ℝ → ℂ)
  | vector (f : Nat → ℝ × ℝ → Nat → ℝ)
  | complexVector (f : Nat → ℝ × ℝ → Nat → ℂ)
  | spaceReal (f : V3 → ℝ)
  | spaceComplex (f : V3 → ℂ)
  | spaceVector (f : V3 → Nat → ℝ)
  | spaceComplexVector (f : V3 → Nat → ℂ)

/-- The members of `VTKSurfaceExport`, l.343-348; `F` is the evaluation of the patches of `msh`, `normals` and `patchNumber` are given by
their rows. -/
structure Surface where
  t : Mesh.Tree ℝ
  F : Nat → ℝ × ℝ → V3
  points : Nat → V3
  cells : List (List Nat)
  normals : Nat → V3
  patchNumber : Nat → Nat
  additionalData : List Str

/-- `init_VTKSurfaceExport`, l.34-53; `nrm p x` is `evalNormal(x)` of patch `p`. -/
noncomputable def init {V : Type} (near : V → V → Bool) (corner : Nat → Nat → V) (P M : Nat) (F nrm : Nat → ℝ × ℝ → V3) (junk : Nat → V3)
    (junkN : Nat → Nat) : Option Surface := do
  let t : Mesh.Tree ℝ ← initElementTree near corner P M
  let (points, _) ← generatePointList t F junk
  let cells ← generateElementList t
  let normals ← cellData t junk fun p x => normalized (nrm p x)
  let patchNumber ← cellData t junkN fun p _ => p
  some ⟨t, F, points, cells, normals, patchNumber, []⟩

/-- `addDataSet_` for a vector resp. a matrix with three columns; the assertion on the rows holds. -/
def Surface.addReal (fm : Formats) (s : Surface) (name : Str) (cols : Nat) (d : Nat → Nat → ℝ) : Option Surface := do
  let str ← dataArray fm.int fm.sci name ⟨s.cells.length, cols, d⟩
  some { s with additionalData := s.additionalData ++ [str] }

/-- `addDataSet`, l.57-132.  `junk` is uninitialised memory. -/
noncomputable def Surface.addDataSet (fm : Formats) (junk : Nat → ℝ) (junkC : Nat → ℂ) (s : Surface) (name : Str) : Fun → Option Surface
  | .real f => do
    let d ← cellData s.t junk f
    s.addReal fm name 1 fun i _ => d i
  | .complex f => do
    let d ← cellData s.t junkC f
    let s ← s.addReal fm (name ++ "_real".toList) 1 fun i _ => (d i).re
    s.addReal fm (name ++ "_imag".toList) 1 fun i _ => (d i).im
  | .vector f => do
    let d ← cellData s.t (fun i _ => junk i) f
    s.addReal fm name 3 d
  | .complexVector f => do
    let d ← cellData s.t (fun i _ => junkC i) f
    let s ← s.addReal fm (name ++ "_real".toList) 3 fun i j => (d i j).re
    s.addReal fm (name ++ "_imag".toList) 3 fun i j => (d i j).im
  | .spaceVector f => do
    let d ← cellData s.t (fun i _ => junk i) fun p x => f (s.F p x)
    s.addReal fm name 3 d
  | .spaceComplexVector f => do
    let d ← cellData s.t (fun i _ => junkC i) fun p x => f (s.F p x)
    let s ← s.addReal fm (name ++ "_real".toList) 3 fun i j => (d i j).re
    s.addReal fm (name ++ "_imag".toList) 3 fun i j => (d i j).im
  | .spaceReal f => do
    let d ← cellData s.t junk fun p x => f (s.F p x)
    s.addReal fm name 1 fun i _ => d i
  | .spaceComplex f => do
    let d ← cellData s.t junkC fun p x => f (s.F p x)
    let s ← s.addReal fm (name ++ "_real".toList) 1 fun i _ => (d i).re
    s.addReal fm (name ++ "_imag".toList) 1 fun i _ => (d i).im

/-- `clearData`, l.216-219. -/
def Surface.clearData (s : Surface) : Surface := { s with additionalData := [] }

/-- A call of a member function between construction and output. -/
inductive Call where
  | add (name : Str) (f : Fun)
  | clear

/-- The effect of a call. -/
noncomputable def Surface.call (fm : Formats) (junk : Nat → ℝ) (junkC : Nat → ℂ) (s : Surface) : Call → Option Surface
  | .add name f => s.addDataSet fm junk junkC name f
  | .clear => some s.clearData

/-- `writeToFile`, l.167-214: the content of the file. -/
def Surface.writeToFile (fm : Formats) (s : Surface) : Str :=
  "<VTKFile type=\"PolyData\" version=\"0.1\" byte_order=\"LittleEndian\">\n<PolyData>\n<Piece NumberOfPoints=\" ".toList ++
  fm.int s.t.nPoints ++
  "\" NumberOfVerts=\"0\" NumberOfLines=\"0\" NumberOfStrips=\"0\" NumberOfPolys=\"".toList ++
  fm.int s.cells.length ++
  "\">\n<Points>\n<DataArray type=\"Float32\" NumberOfComponents=\"3\" format=\"ascii\">\n".toList ++
  eigenPrint fm.real ⟨s.t.nPoints, 3, fun i j => s.points i (Fin.ofNat 3 j)⟩ ++
  "</DataArray>\n</Points>".toList ++
  "<CellData Scalars=\"patch_number\" Normals=\"cell_normals\">\n<DataArray type=\"Int32\" Name=\"patch_number\" format=\"ascii\">\n".toList ++
  eigenPrint (fun n : Nat => fm.int n) ⟨s.cells.length, 1, fun i _ => s.patchNumber i⟩ ++
  "</DataArray>\n<DataArray type=\"Float32\" Name=\"cell_normals\" NumberOfComponents=\"3\" format=\"ascii\">".toList ++
  eigenPrint fm.real ⟨s.cells.length, 3, fun i j => s.normals i (Fin.ofNat 3 j)⟩ ++
  "</DataArray>\n".toList ++
  s.additionalData.flatten ++
  "</CellData>\n<Polys>\n<DataArray type=\"Int32\" Name=\"connectivity\" format=\"ascii\">\n".toList ++
  eigenPrint (fun n : Nat => fm.int n) ⟨s.cells.length, 4, fun i j => (s.cells.getD i []).getD j 0⟩ ++
  "</DataArray>\n<DataArray type=\"Int32\" Name=\"offsets\" format=\"ascii\">\n".toList ++
  ((List.range s.cells.length).flatMap fun i => fm.int (((i + 1) * 4 : Nat) : Int) ++ "\n".toList) ++
  "</DataArray>\n</Polys>\n</Piece>\n</PolyData>\n</VTKFile>".toList

/-- A use of the exporter: construction, calls, output. -/
noncomputable def exportSurface {V : Type} (fm : Formats) (near : V → V → Bool) (corner : Nat → Nat → V) (P M : Nat) (F nrm : Nat → ℝ × ℝ → V3)
    (junk : Nat → V3) (junkN : Nat → Nat) (junkR : Nat → ℝ) (junkC : Nat → ℂ) (calls : List Call) : Option Str := do
  let s ← init near corner P M F nrm junk junkN
  let s ← calls.foldlM (Surface.call fm junkR junkC) s
  some (s.writeToFile fm)

/-! ## Grids and points -/

/-- The function types of `VTKDomainExport::addDataSet`, l.45-74. -/
inductive DomainFun where
  | scalar (f : V3 → ℝ)
  | vector (f : V3 → Nat → ℝ)

/-- A call of a member function of `VTKDomainExport`. -/
inductive DomainCall where
  | add (name : Str) (f : DomainFun)
  | clear

/-- The three nested loops of `VTKDomainExport`, l.48-50, l.63-65, l.90-92: the visited indices `(x_idx, y_idx, z_idx)` in order. -/
def gridLoop (nx ny nz : Nat) : List (Nat × Nat × Nat) :=
  (List.range nz).flatMap fun z => (List.range ny).flatMap fun y => (List.range nx).map fun x => (x, y, z)

/-- `Eigen::Vector3d(x_vec_(x_idx), y_vec_(y_idx), z_vec_(z_idx))`. -/
def gridPoint (X Y Z : List ℝ) (i : Nat × Nat × Nat) : V3 := !₂[X.getD i.1 0, Y.getD i.2.1 0, Z.getD i.2.2 0]

/-- The loops of `addDataSet`, l.47-55, l.62-71: row `i = nx * ny * z + nx * y + x` of the matrix is written, `none` if this row does not
exist. -/
def gridData (X Y Z : List ℝ) (junk : Nat → α) (f : V3 → α) : Option (Nat → α) :=
  (gridLoop X.length Y.length Z.length).foldlM (fun d i =>
    let row := X.length * Y.length * i.2.2 + X.length * i.2.1 + i.1
    if row < X.length * Y.length * Z.length then some (upd d row (f (gridPoint X Y Z i))) else none) junk

/-- `VTKDomainExport::addDataSet`, l.45-74, and `clearData`, l.107-110: the new value of `additionalData`. -/
def domainCall (fm : Formats) (junk : Nat → ℝ) (X Y Z : List ℝ) (data : List Str) : DomainCall → Option (List Str)
  | .add name (.scalar f) => do
    let d ← gridData X Y Z junk f
    let str ← dataArray fm.int fm.sci name ⟨X.length * Y.length * Z.length, 1, fun i _ => d i⟩
    some (data ++ [str])
  | .add name (.vector f) => do
    let d ← gridData X Y Z (fun i _ => junk i) f
    let str ← dataArray fm.int fm.sci name ⟨X.length * Y.length * Z.length, 3, d⟩
    some (data ++ [str])
  | .clear => some []

/-- `VTKDomainExport::writeToFile`, l.75-105, after the constructor, l.28-39, and calls of member functions. -/
def exportDomain (fm : Formats) (junk : Nat → ℝ) (X Y Z : List ℝ) (calls : List DomainCall) : Option Str := do
  let xNum : Int := X.length - 1
  let yNum : Int := Y.length - 1
  let zNum : Int := Z.length - 1
  let data ← calls.foldlM (domainCall fm junk X Y Z) []
  some ("<VTKFile type=\"StructuredGrid\" version=\"0.1\" byte_order=\"LittleEndian\">\n<StructuredGrid WholeExtent=\"".toList ++
    "0 ".toList ++ fm.int xNum ++ " 0 ".toList ++ fm.int yNum ++ " 0 ".toList ++ fm.int zNum ++
    "\">\n<Piece Extent= \"".toList ++
    "0 ".toList ++ fm.int xNum ++ " 0 ".toList ++ fm.int yNum ++ " 0 ".toList ++ fm.int zNum ++
    "\">\n<Points>\n<DataArray type=\"Float32\" NumberOfComponents=\"3\" format=\"ascii\">\n".toList ++
    ((gridLoop X.length Y.length Z.length).flatMap fun i =>
      fm.real (X.getD i.1 0) ++ " ".toList ++ fm.real (Y.getD i.2.1 0) ++ " ".toList ++ fm.real (Z.getD i.2.2 0) ++ "\n".toList) ++
    "</DataArray>\n</Points>\n<PointData>\n".toList ++
    data.flatten ++
    "</PointData>\n</Piece>\n</StructuredGrid>\n</VTKFile>\n".toList)

/-- A call of a member function of `VTKPointExport`: `addDataSet`, `addComplexDataSet`, `clearData`. -/
inductive PointCall where
  | add (name : Str) (mat : EMat ℝ)
  | addComplex (name : Str) (mat : EMat ℂ)
  | clear

/-- The effect on `additionalData_`, VTKPointExport.hpp l.40-61, l.95-98. -/
def pointCall (fm : Formats) (data : List Str) : PointCall → Option (List Str)
  | .add name mat => do
    let str ← dataArray fm.int fm.fixed name mat
    some (data ++ [str])
  | .addComplex name mat => do
    let re ← dataArray fm.int fm.fixed (name ++ "_real".toList) ⟨mat.rows, mat.cols, fun i j => (mat.at' i j).re⟩
    let im ← dataArray fm.int fm.fixed (name ++ "_imag".toList) ⟨mat.rows, mat.cols, fun i j => (mat.at' i j).im⟩
    some (data ++ [re] ++ [im])
  | .clear => some []

/-- `VTKPointExport::writeToFile`, VTKPointExport.hpp l.63-92, after the constructor, l.30-36, and calls of member functions. -/
def exportPoints (fm : Formats) (points : EMat ℝ) (calls : List PointCall) : Option Str := do
  let data ← calls.foldlM (pointCall fm) []
  some ("<VTKFile type=\"PolyData\" version=\"0.1\" byte_order=\"LittleEndian\">\n<PolyData>\n<Piece NumberOfPoints=\" ".toList ++
    fm.int points.rows ++
    "\" NumberOfVerts=\"0\" NumberOfLines=\"0\" NumberOfStrips=\"0\" NumberOfPolys=\"0\">\n<Points>\n<DataArray type=\"Float32\" NumberOfComponents=\"3\" format=\"ascii\">\n".toList ++
    eigenPrint fm.real points ++
    "\n</DataArray>\n</Points>\n".toList ++
    "<PointData Scalars=\"number\">\n<DataArray type=\"Int32\" Name=\"number\" format=\"ascii\">\n".toList ++
    eigenPrint (fun n : Nat => fm.int n) ⟨points.rows, 1, fun i _ => i⟩ ++
    "</DataArray>\n".toList ++
    data.flatten ++
    "</PointData>\n</Piece>\n</PolyData>\n</VTKFile>".toList)

end Vtk
end Bembel
