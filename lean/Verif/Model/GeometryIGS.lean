import Verif.Model.GeometryIO
/-!
# Model of `Geometry/GeometryIGS.hpp` (parameter section) and of the suffix test in `Geometry/Geometry.hpp`

Strings are lists of characters.  The conversion between numbers and strings is a parameter (`fmt`, `parse`).
Not modelled: the start, global, directory and terminate sections and the text of columns 64-79 of a
parameter line; the line counts of the directory section are passed to the loader as numbers.
-/

namespace Bembel
namespace Geo

open Basis Spl

variable {K : Type} [Field K] [LinearOrder K]

/-- Body of the loop in `makeSection`, Geometry/GeometryIGS.hpp l.212-225; state `(out, line)`. -/
def sectionStep (data : List (List Char)) (linewidth : Nat)
    (st : List (List Char) × List Char) (i : Nat) : List (List Char) × List Char :=
  let item := data.getD i [] ++ (if i + 1 < data.length then [','] else [';'])
  let st := if st.2.length + item.length > linewidth then (st.1 ++ [st.2], []) else st
  (st.1, st.2 ++ item)

/-- `makeSection`, Geometry/GeometryIGS.hpp l.205-228. -/
def makeSection (data : List (List Char)) (linewidth : Nat) : List (List Char) :=
  let st := forLoop data.length (sectionStep data linewidth) ([], [])
  st.1 ++ [st.2]

/-- `writeParameterSection`, Geometry/GeometryIGS.hpp l.181-194: each line padded to 64 columns; the patch
index, the letter `P` and the line number that follow are an arbitrary text `tail`. -/
def writeParameterSection (section_ : List (List Char)) (tail : Nat → List Char) : List (List Char) :=
  (List.range section_.length).map fun k =>
    let line := section_.getD k []
    line ++ List.replicate (64 - line.length) ' ' ++ tail k

/-- `while (std::getline(iss, word, ','))` on a string, Geometry/GeometryIGS.hpp l.86; `acc` is the current
word.  An empty rest at the end of the string yields no word. -/
def splitComma : List Char → List Char → List (List Char)
  | acc, [] => if acc = [] then [] else [acc]
  | acc, c :: cs => if c = ',' then acc :: splitComma [] cs else splitComma (acc ++ [c]) cs

/-- Words of one line, Geometry/GeometryIGS.hpp l.81-88: columns 0-63, blanks removed, split at commas. -/
def lineWords (row : List Char) : List (List Char) :=
  splitComma [] ((row.take 64).filter fun c => c ≠ ' ')

/-- Conversion of an entry to `int` (`const int K1 = data[1]`); only integer entries are modelled. -/
def entryInt (data : List (Tok K)) (i : Nat) : Option Int :=
  match data[i]? with
  | some (.int n) => some n
  | _ => none

/-- Decoding the entries of one patch, Geometry/GeometryIGS.hpp l.94-143. -/
def loadPatchIGS (junk : Nat → K) (data : List (Tok K)) : Option (Patch K) := do
  let K1 ← entryInt data 1
  let K2 ← entryInt data 2
  let M1 ← entryInt data 3
  let M2 ← entryInt data 4
  let N1 := 1 + K1 - M1
  let N2 := 1 + K2 - M2
  let A := (N1 + 2 * M1).toNat
  let B := (N2 + 2 * M2).toNat
  let C := ((1 + K1) * (1 + K2)).toNat
  if data.length < 10 + (A + B + C + 2) + 3 * C then none
  else
    let d : List K := (data.drop 10).map fun t => atof (some t)
    let knt1 := d.take (A + 1)
    let knt2 := (d.drop (A + 1)).take (B + 1)
    let M := (K2 + 1).toNat
    let N := (K1 + 1).toNat
    let w : Nat → Nat → K := fun i j => d.getD (A + B + 2 + (i * N + j)) 0
    let x : Nat → Nat → Nat → K := fun c i j => d.getD (A + B + C + 2 + (3 * (i * N + j) + c)) 0
    let tmp : Nat → Mat K := fun k => ⟨M, N, fun i j => if k < 3 then x k i j * w i j else w i j⟩
    initPatch junk tmp knt1 knt2

/-- Main loop of `LoadGeometryFileIGS`, Geometry/GeometryIGS.hpp l.71-148.  `patchLines` are the line counts
from the directory section, `rows` the lines of the parameter section; too few lines are outside the model. -/
def loadIGS (parse : List Char → Tok K) (junk : Nat → K) :
    List Nat → List (List Char) → Option (List (Patch K))
  | [], _ => some []
  | n :: ns, rows => do
    if rows.length < n then none
    else
      let p ← loadPatchIGS junk (((rows.take n).flatMap lineWords).map parse)
      let ps ← loadIGS parse junk ns (rows.drop n)
      some (p :: ps)

/-- A knot vector of `writePatchData`, Geometry/GeometryIGS.hpp l.395-396: `2*degree` zeros, then ones are
written to positions `degree, …, degree + n - 1` with `n = degree + 1`; a write outside the vector is
undefined behaviour. -/
def igsKnotsWrite (degree n : Nat) : Option (List K) := do
  let v ← forOpt n (fun (v : Nat → K) i =>
    if degree + i < 2 * degree then some (upd v (degree + i) 1) else none) (fun _ => 0)
  some ((List.range (2 * degree)).map v)

/-- Rest of `writePatchData` after the knot vectors have been built, Geometry/GeometryIGS.hpp l.400-471.  The
blocks of `patch_data` are filled at consecutive offsets, which is written as concatenation. -/
def igsEntries (p : Patch K) (knotsX knotsY : List K) : List (Tok K) :=
  let nx := knotsX.length - p.px
  let ny := knotsY.length - p.py
  let size := p.data.length / 4
  let idx : Nat → Nat := fun i => i % ny * nx + i / ny
  let weights := forLoop size (fun v i => upd v (idx i) (p.data.getD (i * 4 + 3) 0)) fun _ => 0
  let coord : Nat → Nat → K := fun c => forLoop size (fun v i =>
    upd v (idx i) (p.data.getD (i * 4 + c) 0 / p.data.getD (i * 4 + 3) 0)) fun _ => 0
  [.int 128, .int (nx - 1 : Int), .int (ny - 1 : Int), .int (p.px - 1 : Int), .int (p.py - 1 : Int),
    .int 0, .int 0, .int 0, .int 0, .int 0] ++
  knotsX.map .real ++ knotsY.map .real ++
  (List.range size).map (fun i => .real (weights i)) ++
  (List.range size).flatMap (fun i => [.real (coord 0 i), .real (coord 1 i), .real (coord 2 i)]) ++
  [.real 0, .real 1, .real 0, .real 1, .int 0, .int 0]

/-- `writePatchData`, Geometry/GeometryIGS.hpp l.385-471; violated assertions are `none`. -/
def writePatchData (p : Patch K) : Option (List (Tok K)) := do
  if ¬ (p.ux.length = 2 ∧ p.uy.length = 2) then none
  else
    let kx ← igsKnotsWrite p.px (p.px + 1)
    let ky ← igsKnotsWrite p.py (p.py + 1)
    some (igsEntries p kx ky)

/-- Parameter section of `writeIGSFile`, Geometry/GeometryIGS.hpp l.493-512: for the entry lists of all
patches, the number of lines of each and all lines. -/
def writeIGSSections (fmt : Tok K → List Char) (tail : Nat → Nat → List Char) (entries : List (List (Tok K))) :
    List Nat × List (List Char) :=
  let sections := entries.map fun e => makeSection (e.map fmt) 64
  (sections.map List.length,
    (List.range sections.length).flatMap fun i => writeParameterSection (sections.getD i []) (tail i))

/-- File types of `Geometry::init_Geometry`. -/
inductive FileType where
  | dat
  | igs
deriving DecidableEq

/-- `filename.substr(filename.find('.') + 1)`, Geometry/Geometry.hpp l.90: what follows the first dot; if there is
no dot, `npos + 1 = 0`, i.e. the whole name. -/
def suffixFrom : List Char → Option (List Char)
  | [] => none
  | c :: cs => if c = '.' then some cs else suffixFrom cs

/-- Choice of the loader in `Geometry::init_Geometry`, Geometry/Geometry.hpp l.89-98; `none` = assertion
"File type unknown!". -/
def fileType (filename : List Char) : Option FileType :=
  let suffix := (suffixFrom filename).getD filename
  if suffix = "dat".toList then some .dat
  else if suffix = "igs".toList then some .igs
  else none

end Geo
end Bembel
