import Verif.Model.EMat
import Verif.Spec.BlockCluster
import Verif.Model.H2Product
/-!
# Specification: the matrix represented by an H2-matrix

Small mathematical definitions: nested cluster bases and the entries of a leaf block.
-/

namespace Bembel
namespace H2

open Finset Mesh BlockCluster

variable {R : Type} [CommRing R]

/-- Nested cluster basis.  A cluster `l` levels above the finest clusters has `mc * 4^l` unknowns (local number `r`), the
basis has `nc` components with `np` functions each; function `i` is number `i % np` of component `i / np`.  On the
finest clusters the basis is given by the moment matrix, above by the transfer matrix: unknown `r` belongs to the son
number `r / (mc * 4^l)`. -/
def clusterBasis (np mc : Nat) (moment transfer : EMat R) : Nat → Nat → Nat → R
  | 0, i, r => moment.at' i r
  | l + 1, i, r => ∑ b ∈ range np, transfer.at' (i % np) (r / (mc * 4 ^ l) * np + b) *
      clusterBasis np mc moment transfer l (i / np * np + b) (r % (mc * 4 ^ l))

/-- Entry number `(r, c)` (local numbers in the block) of a leaf block with matrix `F`: the entry itself for a dense
block, `(Vᵀ F W)(r, c)` with the cluster bases `V` of the row component and `W` of the column component for a
compressed block `l` levels above the finest clusters. -/
def leafEntry (np mc : Nat) (momentRow momentCol transfer : EMat R) (dense : Bool) (l : Nat) (F : EMat R)
    (r c : Nat) : R :=
  if dense then F.at' r c
  else ∑ i ∈ range F.rows, ∑ j ∈ range F.cols,
    clusterBasis np mc momentRow transfer l i r * F.at' i j * clusterBasis np mc momentCol transfer l j c

/-- Number of levels of a compressed leaf above the finest clusters, which are `minLevel` levels above the elements. -/
def leafLevel {K : Type} (t : Mesh.Tree K) (minLevel : Int) (b : BTree) : Nat :=
  match b.cluster1 with
  | some a => ((t.maxLevel : Int) - minLevel - (t.level a : Int)).toNat
  | none => 0

/-- Number of unknowns of the finest clusters. -/
def clusterSize {K : Type} (H : Mat K R) : Nat := H.pp * 4 ^ min H.minLevel.toNat H.t.maxLevel

/-- Sizes of the parts of an H2-matrix fit together: `np` interpolation points, `nc` components of the far field. -/
structure WellFormed {K E : Type} [NormedAddCommGroup E] (H : Mat K R) (B : Addr → Util.Ball E) (eta : ℝ) (np nc : Nat) :
    Prop where
  np_pos : 0 < np
  nc_pos : 0 < nc
  vd_pos : 0 < H.vd
  pp_pos : 0 < H.pp
  minLevel : 0 ≤ H.minLevel
  transfer : H.transfer.rows = np ∧ H.transfer.cols = 4 * np
  moment : ∀ i < H.vd, (H.moment i).rows = nc * np ∧ (H.moment i).cols = clusterSize H
  tree : ∀ i < H.vd, ∀ j < H.vd, (H.leaves i j).map Prod.fst = leafPointers (initBlockClusterTree H.t B eta H.minLevel)
  dense : ∀ i < H.vd, ∀ j < H.vd, ∀ x ∈ H.leaves i j, x.1.cc = .dense →
    x.1.rows.map (H.pp * ·) = some x.2.rows ∧ x.1.cols.map (H.pp * ·) = some x.2.cols
  lowRank : ∀ i < H.vd, ∀ j < H.vd, ∀ x ∈ H.leaves i j, x.1.cc = .lowRank → x.2.rows = nc * np ∧ x.2.cols = nc * np
  trans : H.trans.rows = H.vd * (H.pp * H.t.nElements)

/-- `A` is the matrix (in the basis of all element-wise functions) that is represented by `H`: its entry number
`(r, c)` in the block of vector components `(i, j)` is the entry of the leaf whose index block contains `(r, c)`. -/
def Represents {K : Type} (H : Mat K R) (np : Nat) (A : Nat → Nat → R) : Prop :=
  ∀ i < H.vd, ∀ j < H.vd, ∀ x ∈ H.leaves i j, ∀ r c r0 c0, Covers H.t H.pp x.1 r c →
    rowStart H.t H.pp x.1 = some r0 → colStart H.t H.pp x.1 = some c0 →
    A (i * (H.pp * H.t.nElements) + r) (j * (H.pp * H.t.nElements) + c) =
      leafEntry np (clusterSize H) (H.moment i) (H.moment j) H.transfer (x.1.cc = .dense)
        (leafLevel H.t H.minLevel x.1) x.2 (r - r0) (c - c0)

/-- Inner product (without conjugation) of two matrices of the same size: sum of the products of their entries. -/
def pairing (A B : EMat R) : R := ∑ i ∈ range A.rows, ∑ k ∈ range A.cols, A.at' i k * B.at' i k

end H2
end Bembel
