import Verif.Model.GeometryIGS
/-!
# Model of `Geometry/GeometryIGS.hpp`: the file as a whole

A text file is the list of its lines (file names and dates contain no line break).  Numbers that the directory section needs are modelled
digit by digit; the numbers of the parameter section are converted by the parameters `fmt` and `parse` as in `Model/GeometryIGS.lean`.
`none` = failed assertion, exception in a `noexcept` function, call of `exit` or undefined behaviour.
-/

namespace Bembel
namespace Geo

open Basis Spl

variable {K : Type} [Field K] [LinearOrder K]

/-- The character of a digit. -/
def digitChar (d : Nat) : Char := Char.ofNat (48 + d)

/-- Digits of a number; the first argument bounds the number of digits. -/
def decAux : Nat → Nat → List Char
  | 0, _ => []
  | f + 1, n => if n < 10 then [digitChar n] else decAux f (n / 10) ++ [digitChar (n % 10)]

/-- `stream << n` for an `int` that is not negative (Geometry/GeometryIGS.hpp l.165, 188-189, 345-366, 516-519): decimal digits. -/
def dec (n : Nat) : List Char := decAux (n + 1) n

/-- `std::right << std::setw(w)`, the default alignment. -/
def setwRight (w : Nat) (s : List Char) : List Char := List.replicate (w - s.length) ' ' ++ s

/-- `std::left << std::setw(w)`. -/
def setwLeft (w : Nat) (s : List Char) : List Char := s ++ List.replicate (w - s.length) ' '

/-- `writeSection`, Geometry/GeometryIGS.hpp l.158-169. -/
def writeSection (section_ : List (List Char)) (c : Char) : List (List Char) :=
  (List.range section_.length).map fun k => setwLeft 72 (section_.getD k []) ++ (c :: setwRight 7 (dec (k + 1)))

/-- `writeIGSHeader`, Geometry/GeometryIGS.hpp l.235-244. -/
def igsHeader : List (List Char) :=
  writeSection [[], "IGES obtained from Bembel.".toList, "See <http://www.bembel.eu>".toList, []] 'S'

/-- The entries of `writeGlobalSection`, Geometry/GeometryIGS.hpp l.266-320; `date` is the text of the current date. -/
def globalEntries (fileName date : List Char) : List (List Char) :=
  ["1H,".toList, "1H;".toList, "Bembel".toList, fileName, "Bembel".toList, "writeIGSFile".toList, "32".toList, "75".toList, "6".toList, "75".toList,
    "15".toList, "Nurbs from Bembel".toList, "1.0".toList, "6".toList, "M".toList, "1000".toList, "1.0".toList, date, "0.000001".toList,
    "10000.0".toList, "Maximilian Nolte".toList, "CEM - TU Darmstadt".toList, "3".toList, "0".toList]

/-- `writeGlobalSection`, Geometry/GeometryIGS.hpp l.265-326. -/
def writeGlobal (fileName date : List Char) : List (List Char) := writeSection (makeSection (globalEntries fileName date) 72) 'G'

/-- The two lines for patch `i` in `writeDirectory`, Geometry/GeometryIGS.hpp l.344-366: nine fields of eight columns, the letter `D` and a number. -/
def directoryLines (i start lines : Nat) : List (List Char) :=
  [(["128".toList, dec start, dec 0, dec 0, dec 0, dec 0, dec 0, dec 0, dec 0].flatMap (setwRight 8)) ++ ('D' :: setwRight 7 (dec ((i + 1) * 2 - 1))),
   (["128".toList, dec 0, dec 0, dec lines, dec 0, " ".toList, " ".toList, " ".toList, dec 0].flatMap (setwRight 8)) ++
      ('D' :: setwRight 7 (dec ((i + 1) * 2)))]

/-- The loop of `writeIGSFile` over the patches that computes `start_idx` and `end_idx`, Geometry/GeometryIGS.hpp l.488-502, and `writeDirectory`,
l.336-371; `start` is the value of `start_line`, `i` the number of the first patch of the list. -/
def writeDirectory : Nat → Nat → List Nat → List (List Char)
  | _, _, [] => []
  | i, start, n :: ns => directoryLines i start n ++ writeDirectory (i + 1) (start + n) ns

/-- The loop of `writeIGSFile` that writes the parameter sections, Geometry/GeometryIGS.hpp l.504-512. -/
def writeParameters : Nat → Nat → List (List (List Char)) → List (List Char)
  | _, _, [] => []
  | i, first, s :: ss =>
    writeParameterSection s (fun k => setwRight 8 (dec (1 + 2 * i)) ++ ('P' :: setwRight 7 (dec (first + k)))) ++ writeParameters (i + 1) (first + s.length) ss

/-- The last line of `writeIGSFile`, Geometry/GeometryIGS.hpp l.513-526. -/
def terminateLine (sizeGlobal sizeDirectory sizeParameter : Nat) : List Char :=
  setwLeft 72 (setwRight 7 (dec 4) ++ ['S'] ++ setwRight 7 (dec sizeGlobal) ++ ['G'] ++ setwRight 7 (dec sizeDirectory) ++ ['D'] ++
    setwRight 7 (dec sizeParameter) ++ ['P']) ++ ('T' :: setwRight 7 (dec 1))

/-- `writeIGSFile`, Geometry/GeometryIGS.hpp l.481-530, for the given entries of the patches (the results of `writePatchData`). -/
def writeIGSFile (fileName date : List Char) (entries : List (List (List Char))) : List (List Char) :=
  let sections := entries.map fun e => makeSection e 64
  let counts := sections.map List.length
  igsHeader ++ writeGlobal fileName date ++ writeDirectory 0 1 counts ++ writeParameters 0 1 sections ++
    [terminateLine (makeSection (globalEntries fileName date) 72).length (2 * counts.length) counts.sum]

/-- `row[72]`: the character behind the last one is the null character, beyond that the access is undefined. -/
def column72 (row : List Char) : Option Char :=
  if row.length < 72 then none else some (row.getD 72 (Char.ofNat 0))

/-- `while (iss >> word)` on a line, Geometry/GeometryIGS.hpp l.53-55 and 62-64: the words between the white space; `acc` is the current word. -/
def splitBlank : List Char → List Char → List (List Char)
  | acc, [] => if acc = [] then [] else [acc]
  | acc, c :: cs => if c.isWhitespace then (if acc = [] then splitBlank [] cs else acc :: splitBlank [] cs) else splitBlank (acc ++ [c]) cs

/-- `std::stoi(word)`: an optional sign and the digits at the beginning of the word; throws if there are none or if the number does not fit into an
`int`. -/
def stoiText (w : List Char) : Option Int :=
  let sign : Int := if w.head? = some '-' then -1 else 1
  let rest := if w.head? = some '-' ∨ w.head? = some '+' then w.drop 1 else w
  let ds := rest.takeWhile Char.isDigit
  let v := sign * ((ds.foldl (fun a c => 10 * a + (c.toNat - 48)) 0 : Nat) : Int)
  if ds = [] then none else if -2147483648 ≤ v ∧ v < 2147483648 then some v else none

/-- The first loop of `LoadGeometryFileIGS`, Geometry/GeometryIGS.hpp l.42-45.  The list starts with the current row. -/
def skipToDirectory : List (List Char) → Option (List (List Char))
  | [] => none
  | row :: rest => do
    let c ← column72 row
    if c = 'D' then some (row :: rest) else skipToDirectory rest

/-- The second loop of `LoadGeometryFileIGS`, Geometry/GeometryIGS.hpp l.48-69: the line counts of the patches and the remaining rows. -/
def readDirectory : List (List Char) → Option (List Int × List (List Char))
  | [] => none
  | [row] => do
    let c ← column72 row
    if c = 'P' then some ([], [row]) else none
  | row :: row2 :: rest => do
    let c ← column72 row
    if c = 'P' then some ([], row :: row2 :: rest)
    else
      let info1 ← (splitBlank [] row).mapM stoiText
      if info1[0]? = some 128 then
        let info2 ← (splitBlank [] row2).mapM stoiText
        let n ← info2[3]?
        let (ns, rows) ← readDirectory rest
        some (n :: ns, rows)
      else none

/-- `LoadGeometryFileIGS`, Geometry/GeometryIGS.hpp l.25-150, for an existing file. -/
def loadGeometryFileIGS (parse : List Char → Tok K) (junk : Nat → K) (file : List (List Char)) : Option (List (Patch K)) := do
  let row ← file.head?
  let c ← column72 row
  if c = 'S' then
    let rows ← skipToDirectory file
    let (ns, rows) ← readDirectory rows
    loadIGS parse junk (ns.map Int.toNat) rows
  else none

end Geo
end Bembel
