import Verif.Model.ElementTreeSurface
/-!
# Model of `H2Matrix/BlockClusterTree.hpp`

A cluster is a pointer to a node of the element tree: `none` is the root of the element tree (level -1, radius
`infinity`, sons = patches), `some a` the node with address `a`.  The matrix entries stored in the leaves
(`TreeLeaf`) are not part of this model.
-/

namespace Bembel
namespace BlockCluster

open Mesh Util

/-- Pointer to a node of the element tree. -/
abbrev Cluster := Option Addr

/-- `BlockClusterAdmissibility`, BlockClusterTree.hpp l.19-21. -/
inductive Adm where
  | refine
  | lowRank
  | dense
deriving DecidableEq

/-- A node of the block cluster tree, BlockClusterTree.hpp l.298-311: clusters, `rows_`, `cols_` (`none` if the
computation of the distance is undefined), `cc_` and the matrix of sons with its extents.  `stuck` marks exhausted
recursion fuel. -/
inductive BTree where
  | node (c1 c2 : Cluster) (rows cols : Option Nat) (cc : Adm) (nr nc : Nat) (sons : Nat → Nat → BTree)
  | stuck

variable {K : Type} {E : Type} [NormedAddCommGroup E]

/-- `level_` of a cluster; -1 for the root, ElementTreeNode.hpp l.91. -/
def clusterLevel (t : Mesh.Tree K) : Cluster → Int
  | none => -1
  | some a => (t.level a : Int)

/-- `sons_` of a cluster. -/
def clusterSons (t : Mesh.Tree K) : Cluster → List Addr
  | none => (List.range t.nPatches).map fun i => (i, [])
  | some a => if t.refined a then Mesh.sons a else []

/-- `begin()`, ElementTreeNode.hpp l.207-211, l.231-234; `none` if the tree has no patches. -/
def clusterBegin (t : Mesh.Tree K) : Cluster → Option Addr
  | none => if t.nPatches = 0 then none else some (descend t.refined 0 (t.maxLevel + 1) (0, []))
  | some a => some (descend t.refined 0 (t.maxLevel + 1) a)

/-- `end()`, ElementTreeNode.hpp l.218-222, l.242-245. -/
def clusterEnd (t : Mesh.Tree K) : Cluster → Option Addr
  | none => if t.nPatches = 0 then none else t.next (descend t.refined 3 (t.maxLevel + 1) (t.nPatches - 1, []))
  | some a => t.next (descend t.refined 3 (t.maxLevel + 1) a)

/-- `std::distance` of two element iterators. -/
def distance (t : Mesh.Tree K) (p q : Option Addr) : Option Nat :=
  (walk t.next (t.nElements + 1) p q).map List.length

open scoped Classical in
/-- `compareCluster`, BlockClusterTree.hpp l.255-278, with exact real arithmetic; `B` are midpoint and radius of the
nodes.  For the root (radius infinity) `dist` is 0 and `max_radius` is larger than every real number. -/
noncomputable def compareCluster (t : Mesh.Tree K) (B : Addr → Ball E) (eta : ℝ) (minLevel : Int) (c1 c2 : Cluster) : Adm :=
  let r := match c1, c2 with
    | some a, some b =>
      let dist := ‖(B a).mid - (B b).mid‖ - (B a).rad - (B b).rad
      let dist := if dist > 0 then dist else 0
      let maxRadius := if (B a).rad > (B b).rad then (B a).rad else (B b).rad
      if dist < 0 ∨ maxRadius ≥ eta * dist then Adm.refine else Adm.lowRank
    | _, _ => Adm.refine
  if r = Adm.refine ∧ (t.maxLevel : Int) - clusterLevel t c1 ≤ minLevel then Adm.dense else r

/-- `appendSubtree`, BlockClusterTree.hpp l.155-182, on a node with given `rows_` and `cols_`. -/
noncomputable def appendSubtree (t : Mesh.Tree K) (B : Addr → Ball E) (eta : ℝ) (minLevel : Int) :
    Nat → Cluster → Cluster → Option Nat → Option Nat → BTree
  | 0, _, _, _, _ => .stuck
  | fuel + 1, c1, c2, rows, cols =>
    let cc := compareCluster t B eta minLevel c1 c2
    if cc = Adm.refine then
      let s1 := clusterSons t c1
      let s2 := clusterSons t c2
      .node c1 c2 rows cols cc s1.length s2.length fun i j =>
        match s1[i]?, s2[j]? with
        | some a, some b => appendSubtree t B eta minLevel fuel (some a) (some b)
            (distance t (clusterBegin t (some a)) (clusterEnd t (some a)))
            (distance t (clusterBegin t (some b)) (clusterEnd t (some b)))
        | _, _ => .stuck
    else .node c1 c2 rows cols cc 0 0 fun _ _ => .stuck

/-- `init_BlockClusterTree`, BlockClusterTree.hpp l.121-150. -/
noncomputable def initBlockClusterTree (t : Mesh.Tree K) (B : Addr → Ball E) (eta : ℝ) (minLevel : Int) : BTree :=
  appendSubtree t B eta minLevel (t.maxLevel + 3) none none (some t.nElements) (some t.nElements)

/-- `updateLeafPointers_recursion`, BlockClusterTree.hpp l.288-297. -/
def leafPointers : BTree → List BTree
  | .node c1 c2 rows cols cc nr nc sons =>
    if cc = Adm.refine then
      (List.range nc).flatMap fun j => (List.range nr).flatMap fun i => leafPointers (sons i j)
    else [.node c1 c2 rows cols cc nr nc sons]
  | .stuck => [.stuck]

/-- `cluster1_`, `cluster2_`. -/
def BTree.cluster1 : BTree → Cluster
  | .node c1 .. => c1
  | .stuck => none

/-- `cluster2_`. -/
def BTree.cluster2 : BTree → Cluster
  | .node _ c2 .. => c2
  | .stuck => none

/-- `rows_`, l.201. -/
def BTree.rows : BTree → Option Nat
  | .node _ _ r .. => r
  | .stuck => none

/-- `cols_`, l.202. -/
def BTree.cols : BTree → Option Nat
  | .node _ _ _ c .. => c
  | .stuck => none

/-- `cc_`, l.200. -/
def BTree.cc : BTree → Adm
  | .node _ _ _ _ cc .. => cc
  | .stuck => .refine

/-- `get_row_start_index`, BlockClusterTree.hpp l.218-222; `pp` is `(polynomial_degree + 1)^2`. -/
def rowStart (t : Mesh.Tree K) (pp : Nat) (b : BTree) : Option Nat :=
  (distance t (clusterBegin t none) (clusterBegin t b.cluster1)).map (pp * ·)

/-- `get_row_end_index`, BlockClusterTree.hpp l.223-226. -/
def rowEnd (t : Mesh.Tree K) (pp : Nat) (b : BTree) : Option Nat :=
  (distance t (clusterBegin t none) (clusterEnd t b.cluster1)).map (pp * ·)

/-- `get_col_start_index`, BlockClusterTree.hpp l.227-231. -/
def colStart (t : Mesh.Tree K) (pp : Nat) (b : BTree) : Option Nat :=
  (distance t (clusterBegin t none) (clusterBegin t b.cluster2)).map (pp * ·)

/-- `get_col_end_index`, BlockClusterTree.hpp l.232-235. -/
def colEnd (t : Mesh.Tree K) (pp : Nat) (b : BTree) : Option Nat :=
  (distance t (clusterBegin t none) (clusterEnd t b.cluster2)).map (pp * ·)

end BlockCluster
end Bembel
