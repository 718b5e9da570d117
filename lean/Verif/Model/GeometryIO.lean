import Verif.Model.Patch
/-!
# Model of `Geometry/GeometryIO.hpp` (DAT files)

A text file is a list of items: number/word tokens, white space, end of line.  Numbers are tokens that are
printed and parsed exactly (the code prints 15 decimals; number formatting is not modelled).
`std::stringstream iss` is a list of remaining items plus one flag `good` (neither `eofbit` nor
`failbit` set).  `none` = undefined behaviour, exception or a situation outside the model.
-/

namespace Bembel
namespace Geo

open Basis Spl

variable {K : Type} [Field K] [LinearOrder K]

/-- A token of a text file. -/
inductive Tok (K : Type) where
  | int (n : Int)
  | real (x : K)
  | word (s : String)

/-- A piece of a text file. -/
inductive Item (K : Type) where
  | tok (t : Tok K)
  | ws
  | eol

/-- A text file. -/
abbrev Text (K : Type) := List (Item K)

/-- `getline(file, row)`; reading past the end of the file is outside the model. -/
def getline : Text K → Option (Text K × Text K)
  | [] => none
  | .eol :: rest => some ([], rest)
  | it :: rest => do
    let (row, rest') ← getline rest
    some (it :: row, rest')

/-- State of the `std::stringstream`. -/
structure Stream (K : Type) where
  items : Text K
  good : Bool

/-- `iss.str(row)`: new content, flags unchanged. -/
def Stream.str (s : Stream K) (row : Text K) : Stream K := ⟨row, s.good⟩

/-- `iss.clear()`: reset flags. -/
def Stream.clear (s : Stream K) : Stream K := ⟨s.items, true⟩

/-- Skipping white space. -/
def skipWs : Text K → Text K
  | .ws :: rest => skipWs rest
  | l => l

/-- `iss >> word`.  First component: the new word, or `none` if the extraction fails (then `word` keeps its
value).  A token that ends at the end of the row sets `eofbit`. -/
def Stream.extract (s : Stream K) : Option (Option (Tok K) × Stream K) :=
  if s.good = false then some (none, s)
  else
    match skipWs s.items with
    | [] => some (none, ⟨[], false⟩)
    | [.tok t] => some (some t, ⟨[], false⟩)
    | .tok _ :: .tok _ :: _ => none
    | .tok t :: rest => some (some t, ⟨rest, true⟩)
    | _ => none

/-- `stoi(word)`; other words throw. -/
def stoi : Option (Tok K) → Option Int
  | some (.int n) => some n
  | _ => none

/-- `atof(word.c_str())`; 0 for words that are not numbers. -/
def atof : Option (Tok K) → K
  | some (.int n) => (n : K)
  | some (.real x) => x
  | _ => 0

/-- `iss >> word` keeping the old word on failure. -/
def readWord (sw : Stream K × Option (Tok K)) : Option (Stream K × Option (Tok K)) := do
  let (r, s) ← sw.1.extract
  some (s, r.orElse fun _ => sw.2)

/-- `while (iss >> word) info.push_back(stoi(word))`, Geometry/GeometryIO.hpp l.61-63, l.69-71; every
successful extraction consumes an item, `fuel` = number of items + 1. -/
def readIntsWhile : Nat → Stream K → List Int → Option (Stream K × List Int)
  | 0, _, _ => none
  | fuel + 1, s, info => do
    let (r, s) ← s.extract
    match r with
    | none => some (s, info)
    | some t => do
      let n ← stoi (some t)
      readIntsWhile fuel s (info ++ [n])

/-- `for (k < n) { iss >> word; v.push_back(atof(word.c_str())); }`, Geometry/GeometryIO.hpp l.83-86,
l.92-95, and the matrix loops l.105-110 (the entries in row-major order). -/
def readReals (n : Nat) (sw : Stream K × Option (Tok K)) :
    Option ((Stream K × Option (Tok K)) × List K) :=
  forOpt n (fun (st : (Stream K × Option (Tok K)) × List K) _ => do
    let sw ← readWord st.1
    some (sw, st.2 ++ [atof sw.2])) (sw, [])

/-- State of the matrix loop: file, stream, the reused `word`; the matrices read so far. -/
abbrev MatState (K : Type) := (Text K × Stream K × Option (Tok K)) × List (Mat K)

/-- One iteration of the loop over the four matrices, Geometry/GeometryIO.hpp l.100-114. -/
def loadMatrixStep (M N : Nat) (st : MatState K) (_ : Nat) : Option (MatState K) := do
  let (row, file) ← getline st.1.1
  let ((iss, word), vals) ← readReals (M * N) (st.1.2.1.str row, st.1.2.2)
  some ((file, iss.clear, word), st.2 ++ [⟨M, N, fun i j => vals.getD (i * N + j) 0⟩])

/-- One iteration of the loop over the patches, Geometry/GeometryIO.hpp l.50-118.  State: file
content, stream, the reused `word`. -/
def loadPatchDAT (junk : Nat → K) (file : Text K) (iss : Stream K) :
    Option (Text K × Stream K × Option (Tok K) × Patch K) := do
  let (_, file) ← getline file
  let (row, file) ← getline file
  let iss := iss.str row
  let (_, info) ← readIntsWhile (iss.items.length + 1) iss []
  let (row, file) ← getline file
  let iss : Stream K := ⟨row, true⟩
  let (iss, info) ← readIntsWhile (iss.items.length + 1) iss info
  let iss := iss.clear
  let (row, file) ← getline file
  let iss := iss.str row
  let i0 ← info[0]?
  let i1 ← info[1]?
  let i2 ← info[2]?
  let i3 ← info[3]?
  let ((iss, _), knt1) ← readReals (i0 + i2 + 1).toNat (iss, none)
  let iss := iss.clear
  let (row, file) ← getline file
  let iss := iss.str row
  let ((iss, word), knt2) ← readReals (i1 + i3 + 1).toNat (iss, none)
  let iss := iss.clear
  let N := i2.toNat
  let M := i3.toNat
  let ((file, iss, word), tmp) ← forOpt 4 (loadMatrixStep M N) ((file, iss, word), [])
  let patch ← initPatch junk (fun k => tmp.getD k ⟨0, 0, fun _ _ => 0⟩) knt1 knt2
  some (file, iss, word, patch)

/-- `LoadGeometryFileDAT`, Geometry/GeometryIO.hpp l.25-122; also returns the unread rest of the file. -/
def loadGeometryFileDAT (junk : Nat → K) (file : Text K) : Option (List (Patch K) × Text K) := do
  let (_, file) ← getline file
  let (_, file) ← getline file
  let (_, file) ← getline file
  let (_, file) ← getline file
  let (row, file) ← getline file
  let iss : Stream K := ⟨row, true⟩
  -- infoInt[0..4]
  let ((iss, _), infoInt) ← forOpt 5 (fun (st : (Stream K × Option (Tok K)) × List Int) _ => do
    let sw ← readWord st.1
    let n ← stoi sw.2
    some (sw, st.2 ++ [n])) ((iss, none), [])
  let np ← infoInt[2]?
  let (file, _, out) ← forOpt np.toNat (fun (st : Text K × Stream K × List (Patch K)) _ => do
    let (file, iss, _, patch) ← loadPatchDAT junk st.1 st.2.1
    some (file, iss, st.2.2 ++ [patch])) (file, iss, [])
  some (out, file)

/-- `MakeFile`, Geometry/GeometryIO.hpp l.130-144 (`"\r\n"` is white space followed by an end of line). -/
def makeFile (name : String) (numberOfPatches : Nat) : Text K :=
  [.tok (.word "# nurbs mesh v.2.1"), .ws, .eol,
   .tok (.word "#"), .ws, .tok (.word name), .ws, .eol,
   .tok (.word "# Generated by BEMBEL, see www.bembel.eu"), .ws, .eol,
   .tok (.word "#"), .ws, .eol,
   .tok (.int 2), .ws, .tok (.int 3), .ws, .tok (.int numberOfPatches), .ws, .tok (.int 0), .ws,
     .tok (.int 0), .ws, .eol]

/-- A knot vector line, Geometry/GeometryIO.hpp l.167-176 (`knt[size-1]` of an empty vector is undefined). -/
def writeKnots (k : List K) : Option (Text K) :=
  if k.length = 0 then none
  else
    some ((forLoop (k.length - 1) (fun out i => out ++ [.tok (.real (k.getD i 0)), .ws]) []) ++
      [.tok (.real (k.getD (k.length - 1) 0)), .ws, .eol])

/-- One matrix, Geometry/GeometryIO.hpp l.180-188: the line ends after the element with
`N*i + j == M*N - 1`. -/
def writeMatrix (A : Mat K) (M N : Nat) : Text K :=
  forLoop M (fun out i => forLoop N (fun out j =>
    let out := out ++ [.tok (.real (A.entry i j))]
    if N * i + j + 1 = M * N then out ++ [.ws, .eol] else out ++ [.ws]) out) []

/-- `WritePatch`, Geometry/GeometryIO.hpp l.154-192 (the text appended to the file). -/
def writePatch (current : Nat) (xyzw : List (Mat K)) (knt1 knt2 : List K) : Option (Text K) := do
  let A ← xyzw[0]?
  let p1 : Int := (knt1.length : Int) - (A.cols : Int) - 1
  let p2 : Int := (knt2.length : Int) - (A.rows : Int) - 1
  let k1 ← writeKnots knt1
  let k2 ← writeKnots knt2
  some ([.tok (.word "PATCH"), .ws, .tok (.int (current : Int)), .ws, .eol,
    .tok (.int p1), .ws, .tok (.int p2), .ws, .eol,
    .tok (.int (A.cols : Int)), .ws, .tok (.int (A.rows : Int)), .ws, .eol] ++ k1 ++ k2 ++
    xyzw.flatMap fun B => writeMatrix B A.rows A.cols)

/-- Knot vector built by `WriteDATFile`, Geometry/GeometryIO.hpp l.219-222: `2p` ones, the first `p` set
to zero. -/
def datKnots (p : Nat) : List K :=
  (List.range (2 * p)).map (forLoop p (fun v i => upd v i (0 : K)) (fun _ => 1))

/-- Matrix `c` of a patch built by `WriteDATFile`, Geometry/GeometryIO.hpp l.224-238:
`data[c](i % ny, i / ny) = patch.data_[4*i+c]`. -/
def datMatrix (p : Patch K) (c : Nat) : Option (Mat K) := do
  let nx := 2 * p.px - p.px
  let ny := 2 * p.py - p.py
  let e ← forOpt (nx * ny) (fun (e : Nat → Nat → K) i => do
    let v ← p.data[4 * i + c]?
    some (upd2 e (i % ny) (i / ny) v)) (fun _ _ => 0)
  some ⟨ny, nx, e⟩

/-- One iteration of the loop in `WriteDATFile`, Geometry/GeometryIO.hpp l.210-242. -/
def writeOne (count : Nat) (p : Patch K) : Option (Text K) := do
  if ¬ (p.ux.length = 2 ∧ p.uy.length = 2) then none
  else
    let m0 ← datMatrix p 0
    let m1 ← datMatrix p 1
    let m2 ← datMatrix p 2
    let m3 ← datMatrix p 3
    writePatch count [m0, m1, m2, m3] (datKnots p.px) (datKnots p.py)

/-- `WriteDATFile`, Geometry/GeometryIO.hpp l.204-245: `MakeFile` then one appended block per patch. -/
def writeDATFile (name : String) (ps : List (Patch K)) : Option (Text K) := do
  let (file, _) ← ps.foldlM (fun (st : Text K × Nat) p => do
    let t ← writeOne st.2 p
    some (st.1 ++ t, st.2 + 1)) (makeFile name ps.length, 0)
  some file

end Geo
end Bembel
