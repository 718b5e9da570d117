import Verif.Model.EMat
/-!
# Binary matrix files, IO/print2file.hpp l.107-203

A file is its sequence of bytes.  `int` has four bytes, least significant byte first (as on the supported platforms).  The
memory representation of a scalar type is a `Codec`.  Output to `std::cout` is not modelled; opening a file for writing
succeeds.
-/

namespace Bembel
namespace BinIO

/-- The object representation of a scalar type: `size` is `sizeof(Scalar)`, `enc` the bytes of a value, `dec` the value of
bytes. -/
structure Codec (α : Type) where
  size : Nat
  enc : α → List UInt8
  dec : List UInt8 → α

/-- The four bytes of an `int`. -/
def encInt (i : Int) : List UInt8 :=
  let n := (i % 4294967296).toNat
  [UInt8.ofNat n, UInt8.ofNat (n / 256), UInt8.ofNat (n / 65536), UInt8.ofNat (n / 16777216)]

/-- The `int` stored in four bytes. -/
def decInt (b : List UInt8) : Int :=
  let n : Nat := b.foldr (fun d acc => d.toNat + 256 * acc) 0
  if n < 2147483648 then (n : Int) else (n : Int) - 4294967296

/-- An `int` product; `none` if it overflows (undefined behaviour). -/
noncomputable def intMul (a b : Int) : Option Int :=
  @ite _ (-2147483648 ≤ a * b ∧ a * b < 2147483648) (Classical.propDecidable _) (some (a * b)) none

/-- Conversion of an extent (`Eigen::Index`, 64 bit) to `int`. -/
def toInt32 (n : Int) : Int := decInt (encInt n)

variable {α : Type}

/-- The memory `tmp.data()` of a row major resp. column major copy of a matrix, l.132-147. -/
def storage (rowMajor : Bool) (m : EMat α) : List α :=
  if rowMajor then (List.range m.rows).flatMap fun i => (List.range m.cols).map fun j => m.at' i j
  else (List.range m.cols).flatMap fun j => (List.range m.rows).map fun i => m.at' i j

/-- The writes of `print2bin`, l.120-147, for the values of the `int` variables.  `none`: overflow of the number of bytes, or
the write reads beyond the memory of the matrix. -/
noncomputable def writeFile (c : Codec α) (rowMajor : Bool) (m : EMat α) (rows cols : Int) : Option (List UInt8) := do
  let rc ← intMul rows cols
  let bytes ← intMul rc c.size
  let data := (storage rowMajor m).flatMap c.enc
  if bytes < 0 ∨ data.length < bytes.toNat then none
  else some (encInt c.size ++ encInt (if rowMajor then 1 else 0) ++ encInt rows ++ encInt cols ++ data.take bytes.toNat)

/-- `print2bin`, l.107-152: the content of the file.  `rowMajor` is `var.IsRowMajor`. -/
noncomputable def print2bin (c : Codec α) (rowMajor : Bool) (m : EMat α) : Option (List UInt8) :=
  writeFile c rowMajor m (toInt32 m.rows) (toInt32 m.cols)

/-- An input stream: the bytes not yet read, and whether an operation failed. -/
abbrev Stream := List UInt8 × Bool

/-- `myfile.read(buf, n)` with `n = buf.length`: nothing happens after a failure; at the end of the file the remaining bytes
are stored and the stream fails. -/
def read (buf : List UInt8) (s : Stream) : List UInt8 × Stream :=
  if s.2 then (buf, s)
  else
    let got := s.1.take buf.length
    (got ++ buf.drop got.length, (s.1.drop buf.length, decide (got.length < buf.length)))

/-- Element `k` of an array of scalars in memory. -/
def element (c : Codec α) (mem : List UInt8) (k : Nat) : α := c.dec ((mem.drop (k * c.size)).take c.size)

/-- `bin2Mat`, l.176-202, after the header was read; `s` is the stream.  The return value and the new value of the target matrix
(`none` for the matrix: not assigned).  `junk` is the content of the memory given out by `new`.  The result is `none` if the size
overflows or is negative. -/
noncomputable def readBody (c : Codec α) (junk : Nat → UInt8) (s : Stream) (dataSize isRowMajor rows cols : Int) : Option (Int × Option (EMat α)) :=
  if dataSize ≠ c.size then some (1, none)
  else do
    let rc ← intMul rows cols
    let bytes ← intMul rc dataSize
    if rows < 0 ∨ cols < 0 then none
    else
      let data := (read ((List.range bytes.toNat).map junk) s).1
      if isRowMajor ≠ 0 then
        some (0, some ⟨rows.toNat, cols.toNat, fun i j => element c data (i * cols.toNat + j)⟩)
      else
        some (0, some ⟨rows.toNat, cols.toNat, fun i j => element c data (j * rows.toNat + i)⟩)

/-- `bin2Mat`, l.154-203.  The file is `none` if it cannot be opened. -/
noncomputable def bin2Mat (c : Codec α) (junk : Nat → UInt8) (file : Option (List UInt8)) : Option (Int × Option (EMat α)) :=
  let s0 : Stream := match file with
    | some f => (f, false)
    | none => ([], true)
  let h1 := read (encInt 0) s0
  let h2 := read (encInt 0) h1.2
  let h3 := read (encInt 0) h2.2
  let h4 := read (encInt 0) h3.2
  readBody c junk h4.2 (decInt h1.1) (decInt h2.1) (decInt h3.1) (decInt h4.1)

end BinIO
end Bembel
