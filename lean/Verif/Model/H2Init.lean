import Verif.Model.Moments
import Verif.Model.Operators
import Verif.Model.H2Product
/-!
# Model of the assembly of H2-matrices, `H2Matrix/H2Matrix.hpp` l.88-250

One OpenMP task per leaf; a task writes only the matrices of its leaf in every block cluster tree.  The execution of the parallel
region is given by the order in which the tasks finish.  `surf` is `map2surface`, `pair a b` the matrix computed by
`evaluateBilinearForm` for the elements `a`, `b` (`Model/Duffy.lean`).  All block cluster trees are copies of one tree (l.108-114).
-/

namespace Bembel
namespace H2
open Mesh BlockCluster

variable {R : Type} [CommRing R]

/-- Assignment of a matrix entry. -/
def put (M : Nat → Nat → R) (k i : Nat) (v : R) : Nat → Nat → R := fun a b => if a = k ∧ b = i then v else M a b

/-- `interpolateKernel`, H2Multipole.hpp l.336-375: `n` rows `x` of the point matrix. -/
def interpolateKernel (junk : Nat → Nat → R) (op : Operator R) (surf : Addr → ℝ × ℝ → ℝ → SurfPt) (n : Nat) (x : Nat → ℝ × ℝ)
    (c1 c2 : Addr) : EMat R :=
  ⟨op.vd * op.nc * n, op.vd * op.nc * n,
    (List.range n).foldl (fun F i =>
      let qp1 := surf c1 (x i) 1
      (List.range n).foldl (fun F j =>
        let qp2 := surf c2 (x j) 1
        let out := op.fmm qp1 qp2
        (List.range op.vd).foldl (fun F ii => (List.range op.vd).foldl (fun F jj =>
          (List.range op.nc).foldl (fun F iii => (List.range op.nc).foldl (fun F jjj =>
            put F (i + (ii * op.nc + iii) * n) (j + (jj * op.nc + jjj) * n) (out (iii + ii * op.nc) (jjj + jj * op.nc)))
            F) F) F) F) F) junk⟩

/-- Elements from `begin()` to `end()` of a cluster, ElementTreeNode.hpp l.207-245. -/
def elementsOf {K : Type} (t : Mesh.Tree K) (c : Cluster) : Option (List Addr) :=
  walk t.next (t.nElements + 1) (clusterBegin t c) (clusterEnd t c)

/-- One turn of the loop over `element2`, H2Matrix.hpp l.184-206: `F k` is `F[k]`. -/
def densePair (vd pp : Nat) (pair : Addr → Addr → Option (Nat → Nat → R)) (F : Nat → EMat R) (a : Addr) (cl1 : Nat) (b : Addr)
    (cl2 : Nat) : Option (Nat → EMat R) := do
  let v ← pair a b
  let intval : EMat R := ⟨vd * pp, vd * pp, v⟩
  (List.range vd).foldlM (fun F i => (List.range vd).foldlM (fun F j => do
    let blk ← intval.block (j * pp) (i * pp) pp pp
    let new ← (F (i * vd + j)).setBlock (pp * cl1) (pp * cl2) pp pp blk
    some fun k => if k = i * vd + j then new else F k) F) F

/-- Case `Dense`, H2Matrix.hpp l.163-212: `F[k]`; the size of the blocks is computed from the second cluster. -/
def denseLeaf {K : Type} (junk : Nat → Nat → R) (t : Mesh.Tree K) (vd pp : Nat) (pair : Addr → Addr → Option (Nat → Nat → R))
    (c1 c2 : Cluster) : Option (Nat → EMat R) := do
  let els1 ← elementsOf t c1
  let els2 ← elementsOf t c2
  let blockSize := els2.length * pp
  els1.zipIdx.foldlM (fun F e1 => els2.zipIdx.foldlM (fun F e2 => densePair vd pp pair F e1.1 e1.2 e2.1 e2.2) F)
    (fun _ => ⟨blockSize, blockSize, junk⟩)

/-- Case `LowRank`, H2Matrix.hpp l.214-236, for `F[i * vd + j]`; `np2` is the number of rows of the point matrix. -/
def lowRankLeaf (junk : Nat → Nat → R) (op : Operator R) (surf : Addr → ℝ × ℝ → ℝ → SurfPt) (np2 : Nat) (x : Nat → ℝ × ℝ)
    (c1 c2 : Cluster) : Option (Nat → Nat → Option (EMat R)) :=
  match c1, c2 with
  | some c1, some c2 =>
    let F := interpolateKernel junk op surf np2 x c1 c2
    some fun i j => F.block (j * np2 * op.nc) (i * np2 * op.nc) (np2 * op.nc) (np2 * op.nc)
  | _, _ => none

/-- The matrices computed by the task of a leaf: entry `(i, j)` is assigned to the leaf in `block_cluster_tree_(j, i)`
(`leafs[i * vector_dimension + j]`, H2Matrix.hpp l.153-156). -/
def leafTask {K : Type} (junk : Nat → Nat → R) (t : Mesh.Tree K) (pp : Nat) (pair : Addr → Addr → Option (Nat → Nat → R))
    (op : Operator R) (surf : Addr → ℝ × ℝ → ℝ → SurfPt) (np2 : Nat) (x : Nat → ℝ × ℝ) (leaf : BTree) :
    Option (Nat → Nat → Option (EMat R)) :=
  match leaf.cc with
  | .dense => do
    let F ← denseLeaf junk t op.vd pp pair leaf.cluster1 leaf.cluster2
    some fun i j => some (F (i * op.vd + j))
  | .lowRank => lowRankLeaf junk op surf np2 x leaf.cluster1 leaf.cluster2
  | .refine => none

/-- Memory of the leaves: `mem row col k` is `F_` of leaf number `k` in `block_cluster_tree_(row, col)`. -/
abbrev LeafMem (R : Type) := Nat → Nat → Nat → EMat R

/-- The task of leaf number `k`, H2Matrix.hpp l.159-243. -/
def runTask {K : Type} (junk : Nat → Nat → R) (t : Mesh.Tree K) (pp : Nat) (pair : Addr → Addr → Option (Nat → Nat → R))
    (op : Operator R) (surf : Addr → ℝ × ℝ → ℝ → SurfPt) (np2 : Nat) (x : Nat → ℝ × ℝ) (leaves : List BTree) (mem : LeafMem R)
    (k : Nat) : Option (LeafMem R) := do
  let leaf ← leaves[k]?
  let F ← leafTask junk t pp pair op surf np2 x leaf
  (List.range op.vd).foldlM (fun mem i => (List.range op.vd).foldlM (fun mem j => do
    let f ← F i j
    some fun row col l => if row = j ∧ col = i ∧ l = k then f else mem row col l) mem) mem

/-- Scalars of a real matrix as scalars of the operator. -/
noncomputable def castMat [Algebra ℝ R] (A : EMat ℝ) : EMat R := ⟨A.rows, A.cols, fun i j => algebraMap ℝ R (A.at' i j)⟩

/-- `init_H2Matrix`, H2Matrix.hpp l.93-250: `n` is `number_of_points`, `mom` is `Moment2D::compute2DMoment` of the operator,
`order` the order in which the tasks take effect.  `M0` is the previous memory of the leaves. -/
noncomputable def initH2Matrix [Algebra ℝ R] {W : Type} [NormedAddCommGroup W] (junk : Nat → Nat → R) (junkE junkT : Nat → Nat → ℝ)
    (M0 : LeafMem R) (op : Operator R) (t : Mesh.Tree ℝ) (B : Addr → Util.Ball W) (eta : ℝ) (minLevel : Int) (P : Nat) (trans : EMat R)
    (surf : Addr → ℝ × ℝ → ℝ → SurfPt) (pair : Addr → Addr → Option (Nat → Nat → R)) (E : MomentEnv)
    (mom : MomentEnv → (p cl r np : Nat) → List (EMat ℝ)) (n : Nat) (order : List Nat) : Option (Mat ℝ R) := do
  let bt := initBlockClusterTree t B eta minLevel
  let clusterLevel : Int := (t.maxLevel : Int) - minLevel
  let clusterLevel : Int := if clusterLevel < 0 then 0 else clusterLevel
  let refinement : Int := minLevel
  let refinement : Int := if refinement > (t.maxLevel : Int) then (t.maxLevel : Int) else refinement
  let transfer := computeTransferMatrices E.pts junkE junkT n
  let moments := mom E P clusterLevel.toNat refinement.toNat n
  let points := interpolationPoints2D n (E.pts n)
  let pp := (P + 1) * (P + 1)
  let leaves := leafPointers bt
  let mem ← order.foldlM (runTask junk t pp pair op surf (n * n) points leaves) M0
  some { t := t, minLevel := minLevel, pp := pp, vd := op.vd,
         moment := fun i => castMat (moments.getD i ⟨0, 0, fun _ _ => 0⟩),
         transfer := castMat transfer,
         leaves := fun i j => leaves.zipIdx.map fun x => (x.1, mem i j x.2),
         trans := trans }

end H2
end Bembel
