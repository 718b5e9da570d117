import Verif.Model.EMat
import Verif.Model.Omp
import Verif.Model.BlockClusterTree
/-!
# Model of the H2-matrix-vector product

`H2Matrix/EigenHelper/H2DenseProduct.hpp` and the transformations of `H2Matrix/H2Multipole.hpp`.
Uninitialised matrices have arbitrary entries `junk`.
-/

namespace Bembel
namespace H2

open Finset Mesh BlockCluster

section transform
variable {R : Type} [CommRing R] (junk : Nat → Nat → R)

/-- One iteration of the loop over `steps` in `forwardTransformation`, H2Multipole.hpp l.395-418;
`np` is `number_of_points`, `nc` is `number_of_FMM_components`. -/
def forwardStep (np nc : Nat) (transfer X : EMat R) : Option (EMat R) := do
  let reshaped ← X.reshape (4 * X.rows) (X.cols / 4)
  (List.range nc).foldlM (fun transferred j => do
    let b0 ← reshaped.block ((j + 0 * nc) * np) 0 np reshaped.cols
    let b1 ← reshaped.block ((j + 1 * nc) * np) 0 np reshaped.cols
    let b2 ← reshaped.block ((j + 2 * nc) * np) 0 np reshaped.cols
    let b3 ← reshaped.block ((j + 3 * nc) * np) 0 np reshaped.cols
    let prod ← transfer.mul (EMat.vcat4 b0 b1 b2 b3)
    transferred.setBlock (j * np) 0 np reshaped.cols prod) ⟨reshaped.rows / 4, reshaped.cols, junk⟩

/-- The loop of `forwardTransformation`, H2Multipole.hpp l.394-420: the matrices appended to `long_rhs_forward`,
starting with the present last one. -/
def forwardLoop (np nc : Nat) (transfer : EMat R) : Nat → EMat R → Option (List (EMat R))
  | 0, X => some [X]
  | steps + 1, X => do
    let Y ← forwardStep junk np nc transfer X
    let rest ← forwardLoop np nc transfer steps Y
    some (X :: rest)

/-- `forwardTransformation`, H2Multipole.hpp l.380-422; a negative number of steps is like 0. -/
def forwardTransformation (moment transfer : EMat R) (steps : Int) (longRhs : EMat R) : Option (List (EMat R)) := do
  let np := transfer.rows
  let nc := moment.rows / np
  let f0 ← moment.mul longRhs
  forwardLoop junk np nc transfer steps.toNat f0

/-- `transferred` in `backwardTransformation`, H2Multipole.hpp l.439-458. -/
def backwardStep (np nc : Nat) (transfer Z : EMat R) : Option (EMat R) :=
  (List.range nc).foldlM (fun transferred j => do
    let zb ← Z.block (j * np) 0 np Z.cols
    let prod ← transfer.tr.mul zb
    let b0 ← prod.block (0 * np) 0 np prod.cols
    let transferred ← transferred.setBlock ((j + 0 * nc) * np) 0 np prod.cols b0
    let b1 ← prod.block (1 * np) 0 np prod.cols
    let transferred ← transferred.setBlock ((j + 1 * nc) * np) 0 np prod.cols b1
    let b2 ← prod.block (2 * np) 0 np prod.cols
    let transferred ← transferred.setBlock ((j + 2 * nc) * np) 0 np prod.cols b2
    let b3 ← prod.block (3 * np) 0 np prod.cols
    transferred.setBlock ((j + 3 * nc) * np) 0 np prod.cols b3) ⟨4 * Z.rows, Z.cols, junk⟩

/-- The loop of `backwardTransformation`, H2Multipole.hpp l.438-463, which works from the last entry of
`long_dst_backward` to the first one; returns the final `long_dst_backward[0]`.  The number of entries is
`max(steps, 0) + 1`. -/
def backwardLoop (np nc : Nat) (transfer : EMat R) : List (EMat R) → Option (EMat R)
  | [] => none
  | [X] => some X
  | X :: Y :: rest => do
    let Z ← backwardLoop np nc transfer (Y :: rest)
    let transferred ← backwardStep junk np nc transfer Z
    let m ← transferred.reshape X.rows X.cols
    X.add m

/-- `backwardTransformation`, H2Multipole.hpp l.428-469: length and entries of the result. -/
def backwardTransformation (moment transfer : EMat R) (bw : List (EMat R)) : Option (Nat × (Nat → R)) := do
  let np := transfer.rows
  let nc := moment.rows / np
  let b0 ← backwardLoop junk np nc transfer bw
  let m ← moment.tr.mul b0
  some (m.rows * m.cols, fun s => m.at' (s % m.rows) (s / m.rows))

end transform

/-- Members of `H2Matrix` (H2Matrix.hpp l.292-295) and of its block cluster trees: the element tree and
`min_cluster_level_` from the parameters, `vd` the number of vector components, `pp` the square of the polynomial
degree plus one, `leaves i j` the leaves of `block_cluster_tree_(i, j)` in the order of the leaf pointers with the
matrix `F_` of their `TreeLeaf`. -/
structure Mat (K R : Type) where
  t : Mesh.Tree K
  minLevel : Int
  pp : Nat
  vd : Nat
  moment : Nat → EMat R
  transfer : EMat R
  leaves : Nat → Nat → List (BTree × EMat R)
  trans : EMat R

variable {K R : Type} [CommRing R] (junk : Nat → Nat → R)

/-- Thread private memory: `my_long_dst`, `my_long_dst_backward`. -/
abbrev Priv (R : Type) (N : Nat) := (Fin N → R) × List (EMat R)

/-- Body of the `single` construct of a leaf, H2DenseProduct.hpp l.103-142; `N` is the size of `long_rhs`. -/
def leafBody (H : Mat K R) {N : Nat} (longRhs : Nat → R) (fw : List (EMat R)) (leaf : BTree × EMat R) (p : Priv R N) :
    Option (Priv R N) :=
  match leaf.1.cc with
  | .dense => do
    let r0 ← rowStart H.t H.pp leaf.1
    let r1 ← rowEnd H.t H.pp leaf.1
    let c0 ← colStart H.t H.pp leaf.1
    let c1 ← colEnd H.t H.pp leaf.1
    if r0 ≤ r1 ∧ r1 ≤ N ∧ c0 ≤ c1 ∧ c1 ≤ N ∧ leaf.2.rows = r1 - r0 ∧ leaf.2.cols = c1 - c0 then
      some (fun s => if r0 ≤ s.1 ∧ s.1 < r1 then
        p.1 s + ∑ k ∈ range leaf.2.cols, leaf.2.at' (s.1 - r0) k * longRhs (c0 + k) else p.1 s, p.2)
    else none
  | .lowRank =>
    match leaf.1.cluster1, leaf.1.cluster2 with
    | some a, some b => do
      let fmmLevel := (H.t.maxLevel : Int) - H.minLevel - (H.t.level a : Int)
      if 0 ≤ fmmLevel then
        let bm ← p.2[fmmLevel.toNat]?
        let fm ← fw[fmmLevel.toNat]?
        if H.t.id b < fm.cols ∧ leaf.2.cols = fm.rows then
          let bm ← bm.addCol (H.t.id a) leaf.2.rows
            (fun i => ∑ k ∈ range leaf.2.cols, leaf.2.at' i k * fm.at' k (H.t.id b))
          some (p.1, p.2.set fmmLevel.toNat bm)
        else none
      else none
    | _, _ => none
  | .refine => none

/-- The parallel region, H2DenseProduct.hpp l.81-152. -/
def region (H : Mat K R) (row col : Nat) {N : Nat} (longRhs : Nat → R) (fw : List (EMat R)) :
    Omp.Region (Priv R N) (Fin N → R) where
  n := (H.leaves row col).length
  init := (fun _ => 0, fw.map fun X => ⟨X.rows, X.cols, fun _ _ => 0⟩)
  body i p := do
    let leaf ← (H.leaves row col)[i]?
    leafBody H longRhs fw leaf p
  fin p := do
    let v ← backwardTransformation junk (H.moment row) H.transfer p.2
    if v.1 = N then some (fun s => p.1 s + v.2 s.1) else none

/-- One schedule for every parallel region of a product: column of the right hand side, column and row component. -/
abbrev Schedules (H : Mat K R) := (c col row : Nat) → Omp.Schedule (H.leaves row col).length

/-- Loop body for one pair of components, H2DenseProduct.hpp l.64-156: returns the new `long_dst_all`. -/
def componentStep (H : Mat K R) (N c : Nat) (S : Schedules H) (longRhsAll : Nat → R) (dst : Nat → R) (col row : Nat) :
    Option (Nat → R) := do
  let longRhs := fun k => longRhsAll (col * N + k)
  let m := EMat.reshape ⟨N, 1, fun k _ => longRhs k⟩ (H.moment col).cols (N / (H.moment col).cols)
  let m ← m
  let fw ← forwardTransformation junk (H.moment col) H.transfer ((H.t.maxLevel : Int) - H.minLevel) m
  let longDst ← Omp.exec (region junk H row col longRhs fw) (fun _ : Fin N => 0) (S c col row).sched
  some fun s => if h : row * N ≤ s ∧ s < row * N + N then dst s + longDst ⟨s - row * N, by omega⟩ else dst s

/-- `long_dst_all` for one column of the right hand side, H2DenseProduct.hpp l.51-158. -/
def longDst (H : Mat K R) (c : Nat) (S : Schedules H) (x : Nat → R) : Option (Nat → R) :=
  let longRhsAll := fun s => ∑ d ∈ range H.trans.cols, H.trans.at' s d * x d
  (List.range H.vd).foldlM (fun dst col => (List.range H.vd).foldlM (fun dst row =>
    componentStep junk H (H.trans.rows / H.vd) c S longRhsAll dst col row) dst) (fun _ => 0)

/-- `H2_time_dense_product_impl::run`, H2DenseProduct.hpp l.39-164: `res += alpha * H * rhs`. -/
def run (H : Mat K R) (S : Schedules H) (rhs res : EMat R) (alpha : R) : Option (EMat R) :=
  if H.trans.cols = rhs.rows then
    (List.range rhs.cols).foldlM (fun res c => do
      let dst ← longDst junk H c S (fun d => rhs.at' d c)
      res.addCol c H.trans.cols fun i => ∑ s ∈ range H.trans.rows, alpha * H.trans.at' s i * dst s) res
  else none

end H2
end Bembel
