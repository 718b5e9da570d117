import Verif.Model.VTKExport
/-!
# Specification: what a VTK reader finds in the exported files

Files are read with `Text.scan`: the list of all tags with the words behind each of them.
-/

namespace Bembel
namespace Vtk
open Mesh Text

/-- Numbers are printed as tokens. -/
structure Formats.Ok (fm : Formats) : Prop where
  real : ∀ x, Token (fm.real x)
  sci : ∀ x, Token (fm.sci x)
  fixed : ∀ x, Token (fm.fixed x)
  int : ∀ n, Token (fm.int n)

/-- An array with data: name, number of components, and the printed values one after the other. -/
structure Array' where
  name : Str
  comps : Nat
  values : List Str

/-- The tags of a data array. -/
def Array'.items (fm : Formats) (a : Array') : List (Str × List Str) :=
  [("DataArray type=\"Float32\" Name=\"".toList ++ a.name ++ "\" NumberOfComponents=\"".toList ++ fm.int a.comps ++ "\" format=\"ascii\"".toList, a.values),
   ("/DataArray".toList, [])]

/-- A surface in VTK format (PolyData): points, polygons with four vertices, and data for the polygons. -/
def surfaceItems (fm : Formats) (nPoints nCells : Nat) (points patches normals connectivity : List Str) (data : List Array') : List (Str × List Str) :=
  [("VTKFile type=\"PolyData\" version=\"0.1\" byte_order=\"LittleEndian\"".toList, []), ("PolyData".toList, []),
   ("Piece NumberOfPoints=\" ".toList ++ fm.int nPoints ++ "\" NumberOfVerts=\"0\" NumberOfLines=\"0\" NumberOfStrips=\"0\" NumberOfPolys=\"".toList ++
      fm.int nCells ++ "\"".toList, []),
   ("Points".toList, []),
   ("DataArray type=\"Float32\" NumberOfComponents=\"3\" format=\"ascii\"".toList, points), ("/DataArray".toList, []), ("/Points".toList, []),
   ("CellData Scalars=\"patch_number\" Normals=\"cell_normals\"".toList, []),
   ("DataArray type=\"Int32\" Name=\"patch_number\" format=\"ascii\"".toList, patches), ("/DataArray".toList, []),
   ("DataArray type=\"Float32\" Name=\"cell_normals\" NumberOfComponents=\"3\" format=\"ascii\"".toList, normals), ("/DataArray".toList, [])] ++
  data.flatMap (Array'.items fm) ++
  [("/CellData".toList, []), ("Polys".toList, []),
   ("DataArray type=\"Int32\" Name=\"connectivity\" format=\"ascii\"".toList, connectivity), ("/DataArray".toList, []),
   ("DataArray type=\"Int32\" Name=\"offsets\" format=\"ascii\"".toList, (List.range nCells).map fun i : Nat => fm.int (4 * (i + 1) : Nat)),
   ("/DataArray".toList, []), ("/Polys".toList, []), ("/Piece".toList, []), ("/PolyData".toList, []), ("/VTKFile".toList, [])]

/-- A structured grid with `nx × ny × nz` points and data for the points. -/
def gridItems (fm : Formats) (nx ny nz : Nat) (points : List Str) (data : List Array') : List (Str × List Str) :=
  let extent := "0 ".toList ++ fm.int ((nx : Int) - 1) ++ " 0 ".toList ++ fm.int ((ny : Int) - 1) ++ " 0 ".toList ++ fm.int ((nz : Int) - 1)
  [("VTKFile type=\"StructuredGrid\" version=\"0.1\" byte_order=\"LittleEndian\"".toList, []),
   ("StructuredGrid WholeExtent=\"".toList ++ extent ++ "\"".toList, []), ("Piece Extent= \"".toList ++ extent ++ "\"".toList, []),
   ("Points".toList, []),
   ("DataArray type=\"Float32\" NumberOfComponents=\"3\" format=\"ascii\"".toList, points), ("/DataArray".toList, []), ("/Points".toList, []),
   ("PointData".toList, [])] ++
  data.flatMap (Array'.items fm) ++
  [("/PointData".toList, []), ("/Piece".toList, []), ("/StructuredGrid".toList, []), ("/VTKFile".toList, [])]

/-- A set of points with their numbers and data. -/
def pointItems (fm : Formats) (n : Nat) (points : List Str) (data : List Array') : List (Str × List Str) :=
  [("VTKFile type=\"PolyData\" version=\"0.1\" byte_order=\"LittleEndian\"".toList, []), ("PolyData".toList, []),
   ("Piece NumberOfPoints=\" ".toList ++ fm.int n ++ "\" NumberOfVerts=\"0\" NumberOfLines=\"0\" NumberOfStrips=\"0\" NumberOfPolys=\"0\"".toList, []),
   ("Points".toList, []),
   ("DataArray type=\"Float32\" NumberOfComponents=\"3\" format=\"ascii\"".toList, points), ("/DataArray".toList, []), ("/Points".toList, []),
   ("PointData Scalars=\"number\"".toList, []),
   ("DataArray type=\"Int32\" Name=\"number\" format=\"ascii\"".toList, (List.range n).map fun i : Nat => fm.int i), ("/DataArray".toList, [])] ++
  data.flatMap (Array'.items fm) ++
  [("/PointData".toList, []), ("/Piece".toList, []), ("/PolyData".toList, []), ("/VTKFile".toList, [])]

/-- The printed coordinates of a point. -/
def coords (fmt : ℝ → Str) (x : V3) : List Str := [fmt (x 0), fmt (x 1), fmt (x 2)]

/-- The centre of an element in the parameter domain of its patch. -/
noncomputable def center (t : Mesh.Tree ℝ) (a : Addr) : ℝ × ℝ := ((t.llc a).1 + getH t a / 2, (t.llc a).2 + getH t a / 2)

/-- The functions added since the last `clearData`, in order. -/
def current : List Call → List (Str × Fun)
  | calls => calls.foldl (fun l c => match c with
    | .add name f => l ++ [(name, f)]
    | .clear => []) []

/-- The arrays for a function: real and imaginary part in separate arrays, one or three components; the value on a patch `p` at the
parameter `x`.  Functions in space are evaluated at the surface point `F p x`. -/
def components (F : Nat → ℝ × ℝ → V3) (name : Str) : Fun → List (Str × Nat × (Nat → ℝ × ℝ → Nat → ℝ))
  | .real f => [(name, 1, fun p x _ => f p x)]
  | .complex f => [(name ++ "_real".toList, 1, fun p x _ => (f p x).re), (name ++ "_imag".toList, 1, fun p x _ => (f p x).im)]
  | .vector f => [(name, 3, f)]
  | .complexVector f => [(name ++ "_real".toList, 3, fun p x j => (f p x j).re), (name ++ "_imag".toList, 3, fun p x j => (f p x j).im)]
  | .spaceReal f => [(name, 1, fun p x _ => f (F p x))]
  | .spaceComplex f => [(name ++ "_real".toList, 1, fun p x _ => (f (F p x)).re), (name ++ "_imag".toList, 1, fun p x _ => (f (F p x)).im)]
  | .spaceVector f => [(name, 3, fun p x => f (F p x))]
  | .spaceComplexVector f => [(name ++ "_real".toList, 3, fun p x j => (f (F p x) j).re), (name ++ "_imag".toList, 3, fun p x j => (f (F p x) j).im)]

/-- The functions added to a grid since the last `clearData`. -/
def currentDomain (calls : List DomainCall) : List (Str × DomainFun) :=
  calls.foldl (fun l c => match c with
    | .add name f => l ++ [(name, f)]
    | .clear => []) []

/-- The array for a function on a grid with points `pts`. -/
def domainArray (fm : Formats) (pts : List V3) : Str × DomainFun → Array'
  | (name, .scalar f) => ⟨name, 1, pts.map fun x => fm.sci (f x)⟩
  | (name, .vector f) => ⟨name, 3, pts.flatMap fun x => [fm.sci (f x 0), fm.sci (f x 1), fm.sci (f x 2)]⟩

/-- The points of a structured grid: the first coordinate runs fastest. -/
def gridPoints (X Y Z : List ℝ) : List V3 := Z.flatMap fun z => Y.flatMap fun y => X.map fun x => !₂[x, y, z]

/-- The matrices added to a set of points since the last `clearData`; complex matrices as real and imaginary part. -/
def currentPoint (calls : List PointCall) : List (Str × EMat ℝ) :=
  calls.foldl (fun l c => match c with
    | .add name m => l ++ [(name, m)]
    | .addComplex name m => l ++ [(name ++ "_real".toList, ⟨m.rows, m.cols, fun i j => (m.at' i j).re⟩),
        (name ++ "_imag".toList, ⟨m.rows, m.cols, fun i j => (m.at' i j).im⟩)]
    | .clear => []) []

/-- The printed entries of a matrix, row by row. -/
def table {α : Type} (fmt : α → Str) (m : EMat α) : List Str :=
  (List.range m.rows).flatMap fun i => (List.range m.cols).map fun j => fmt (m.at' i j)

end Vtk
end Bembel
