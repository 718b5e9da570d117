import Mathlib.Logic.Function.Basic
import Verif.Model.BlockClusterTree
/-!
# Ownership of block cluster trees: H2Matrix/BlockClusterTree.hpp, H2Matrix/TreeLeaf.hpp, util/GenericMatrix.hpp

Variables of type `BlockClusterTree` are natural numbers, `none` stands for the by-value argument of `operator=`.  `C` is the type of
`TreeLeaf` values.  Addresses are numbers that are handed out once (an address is not reused while somebody holds it, and nobody
looks at a freed address except through dangling pointers, which are undefined behaviour).  `none` as a result is undefined behaviour:
a null or dangling pointer, an access out of range, an object that does not exist.

The data of `sons_` is one heap object (`Block`), since it is moved, copied and destroyed as a whole.  It lists the `leaf_` pointers
of its leaves in the order of `updateLeafPointers_recursion`; the address of a leaf below the root is the number of the
block and its position in this order.
-/

namespace Bembel.BlockTree
open Bembel.BlockCluster Bembel.Mesh Bembel.Util

/-- A mesh: element tree and enclosing balls. -/
structure MeshData (K E : Type) where
  t : Mesh.Tree K
  B : Addr → Ball E

/-- `BlockClusterTreeParameters`, BlockClusterTree.hpp l.24-36: `eta_`, `min_cluster_level_`, and, once initialised, the mesh `et_root_`
points to together with the polynomial degree.  `max_level_` is the level of that mesh (−1 before), `polynomial_degree_plus_one_squared_`
and `ffield_deg_` are functions of the degree; `GS_` and `ffield_qnodes_` are not used. -/
structure Params where
  eta : ℝ
  minLevel : Int
  bound : Option (Nat × Nat)

/-- Address of a node of a block cluster tree: the variable itself, or leaf number `i` of block `g`. -/
inductive Loc where
  | root (v : Option Nat)
  | son (g i : Nat)

/-- `m_data_` of `sons_`: the mesh the clusters belong to, extents, subtrees, and the `leaf_` pointers of the leaves. -/
structure Block where
  mesh : Nat
  nr : Nat
  nc : Nat
  sons : Nat → Nat → BTree
  leaf : List Nat

/-- The members of a `BlockClusterTree` variable, BlockClusterTree.hpp l.301-311.  `mesh = some k`: `cluster1_` and `cluster2_` point to the
root of the element tree of mesh `k`; `nr`, `nc` are the extents of `sons_` and `gen` its data (`none` is an empty vector). -/
structure Root where
  params : Option Nat
  gen : Option Nat
  nr : Nat
  nc : Nat
  leaf : Option Nat
  lp : Option Nat
  mesh : Option Nat
  rows : Option Nat
  cols : Option Nat
  cc : Option Adm

/-- The memory: meshes (with a flag: still alive), parameter objects, vectors of leaf pointers, leaves, blocks of sons and variables. -/
structure Mem (K E C : Type) where
  meshes : Nat → Option (MeshData K E × Bool)
  params : Nat → Option Params
  vecs : Nat → Option (List Loc)
  cells : Nat → Option C
  blocks : Nat → Option Block
  next : Nat
  vars : Nat → Option Root

variable {K E C : Type}

/-- The empty memory. -/
def Mem.empty : Mem K E C := ⟨fun _ => none, fun _ => none, fun _ => none, fun _ => none, fun _ => none, 0, fun _ => none⟩

/-- Default constructor, BlockClusterTree.hpp l.44-53. -/
def defaultRoot : Root := ⟨none, none, 0, 0, none, none, none, some 0, some 0, none⟩

/-- The leaves of a block in the order of `updateLeafPointers_recursion`, BlockClusterTree.hpp l.288-297. -/
def blockLeaves (nr nc : Nat) (sons : Nat → Nat → BTree) : List BTree :=
  (List.range nc).flatMap fun j => (List.range nr).flatMap fun i => leafPointers (sons i j)

/-- Dereferencing `cluster1_`: the mesh must be alive. -/
def meshAlive (m : Mem K E C) (k : Option Nat) : Option (MeshData K E) := do
  let k ← k
  let d ← m.meshes k
  if d.2 then some d.1 else none

/-- `updateLeafPointers_recursion(*this)`, BlockClusterTree.hpp l.288-297, at the root. -/
def leafLocs (m : Mem K E C) (self : Option Nat) (r : Root) : Option (List Loc) :=
  if r.cc = some Adm.refine then
    if r.nr * r.nc = 0 then some []
    else do
      let g ← r.gen
      let b ← m.blocks g
      if b.nr = r.nr ∧ b.nc = r.nc then some ((List.range (blockLeaves b.nr b.nc b.sons).length).map (Loc.son g)) else none
  else some [Loc.root self]

/-- `updateLeafPointers`, BlockClusterTree.hpp l.279-287, for a root (`cluster1_` is the root of an element tree, `id_` −1).  For the
sons the call returns at once, since the ids of all other clusters are not negative. -/
def updateLeafPointers (m : Mem K E C) (self : Option Nat) (r : Root) : Option (Mem K E C) := do
  let _ ← meshAlive m r.mesh
  let q ← r.lp
  let l ← leafLocs m self r
  some { m with vecs := Function.update m.vecs q (some l) }

/-- `std::make_shared<TreeLeaf>()` and assignment for a list of leaves: the values `xs` at the addresses `next`, `next + 1`, … -/
def newCells (m : Mem K E C) (xs : List C) : Mem K E C × List Nat :=
  ({ m with cells := fun a => if m.next ≤ a ∧ a < m.next + xs.length then xs[a - m.next]? else m.cells a, next := m.next + xs.length },
    (List.range xs.length).map (m.next + ·))

/-- A new block. -/
def newBlock (m : Mem K E C) (b : Block) : Mem K E C × Nat :=
  ({ m with blocks := Function.update m.blocks m.next (some b), next := m.next + 1 }, m.next)

/-- A new vector of leaf pointers. -/
def newVec (m : Mem K E C) : Mem K E C × Nat :=
  ({ m with vecs := Function.update m.vecs m.next (some []), next := m.next + 1 }, m.next)

/-- A new parameter object. -/
def newParams (m : Mem K E C) (p : Params) : Mem K E C × Nat :=
  ({ m with params := Function.update m.params m.next (some p), next := m.next + 1 }, m.next)

/-- Copy of `sons_`, GenericMatrix.hpp l.29-33, l.63-68, with the copy constructors of the sons (BlockClusterTree.hpp l.68-87), which look at
their cluster and copy their leaves. -/
def copySons (m : Mem K E C) : Option Nat → Option (Mem K E C × Option Nat)
  | none => some (m, none)
  | some g => do
    let b ← m.blocks g
    let _ ← meshAlive m (some b.mesh)
    let xs ← b.leaf.mapM m.cells
    let c := newCells m xs
    let s := newBlock c.1 { b with leaf := c.2 }
    some (s.1, some s.2)

/-- Copy of `leaf_`, BlockClusterTree.hpp l.73-79, TreeLeaf.hpp l.127-133. -/
def copyLeaf (m : Mem K E C) : Option Nat → Option (Mem K E C × Option Nat)
  | none => some (m, none)
  | some c => do
    let x ← m.cells c
    let c' := newCells m [x]
    some (c'.1, c'.2.head?)

/-- Copy constructor, BlockClusterTree.hpp l.68-87. -/
def copyRoot (m : Mem K E C) (self : Option Nat) (r : Root) : Option (Mem K E C × Root) := do
  let s ← copySons m r.gen
  let c ← copyLeaf s.1 r.leaf
  let l := newVec c.1
  let r' := { r with gen := s.2, leaf := c.2, lp := some l.2 }
  let m' ← updateLeafPointers l.1 self r'
  some (m', r')

/-- Move constructor, BlockClusterTree.hpp l.55-66, GenericMatrix.hpp l.35-39, l.63-68: the new object takes everything; the vector of the
old one is empty, its other members stay. -/
def moveRoot (m : Mem K E C) (self : Option Nat) (w : Nat) : Option (Mem K E C × Root) := do
  let r ← m.vars w
  let m1 := { m with vars := Function.update m.vars w (some { r with gen := none }) }
  let m2 ← updateLeafPointers m1 self r
  some (m2, r)

/-- Destructor: the sons are freed; the other members are shared pointers. -/
def freeRoot (m : Mem K E C) (r : Root) : Mem K E C :=
  match r.gen with
  | none => m
  | some g => { m with blocks := Function.update m.blocks g none }

/-- `operator=`, BlockClusterTree.hpp l.97-109, after the construction of the argument `x`: all members are swapped, the leaf pointers are
updated, the argument is destroyed. -/
def swapRoot (m : Mem K E C) (v : Nat) (x : Root) : Option (Mem K E C) := do
  let r ← m.vars v
  let m1 := { m with vars := Function.update m.vars v (some x) }
  let m2 ← updateLeafPointers m1 (some v) x
  some (freeRoot m2 r)

/-- `set_parameters`, BlockClusterTree.hpp l.113-118. -/
def setParameters (m : Mem K E C) (r : Root) (eta : ℝ) (minLevel : Int) : Mem K E C × Root :=
  let p := newParams m ⟨eta, minLevel, none⟩
  (p.1, { r with params := some p.2 })

/-- `if (parameters_ == nullptr) set_parameters();`, BlockClusterTree.hpp l.123, with the default arguments of l.113. -/
noncomputable def ensureParameters (m : Mem K E C) (r : Root) : Mem K E C × Root :=
  match r.params with
  | none => setParameters m r (8 / 5) 1
  | some _ => (m, r)

/-- `sons_.resize`, GenericMatrix.hpp l.43-49, when the tree is built a second time: if the number of sons grows, the existing sons are moved
(the move constructor looks at their cluster); the sons are overwritten afterwards. -/
def resizeSons (m : Mem K E C) (r : Root) (nr : Nat) : Option Unit :=
  match r.gen with
  | none => some ()
  | some g => do
    let b ← m.blocks g
    if b.nr < nr ∧ 0 < b.nr * b.nc then
      let _ ← meshAlive m (some b.mesh)
      some ()
    else some ()

/-- `leaf_` of the node at an address. -/
def leafAt (m : Mem K E C) : Loc → Option Nat
  | .root none => none
  | .root (some u) => do
    let r ← m.vars u
    r.leaf
  | .son g i => do
    let b ← m.blocks g
    b.leaf[i]?

/-- What a program sees of a leaf besides its `TreeLeaf`: mesh of the clusters, the clusters, `rows()`, `cols()`, `get_cc()`. -/
structure Info where
  mesh : Nat
  c1 : Cluster
  c2 : Cluster
  rows : Option Nat
  cols : Option Nat
  cc : Adm

/-- `Info` of a node. -/
def infoOf (k : Nat) (b : BTree) : Info := ⟨k, b.cluster1, b.cluster2, b.rows, b.cols, b.cc⟩

/-- The getters of the node at an address, BlockClusterTree.hpp l.200-204, l.241-247. -/
def readAt (m : Mem K E C) : Loc → Option (Info × C)
  | .root none => none
  | .root (some u) => do
    let r ← m.vars u
    let k ← r.mesh
    let cc ← r.cc
    let c ← r.leaf
    let x ← m.cells c
    some (⟨k, none, none, r.rows, r.cols, cc⟩, x)
  | .son g i => do
    let b ← m.blocks g
    let n ← (blockLeaves b.nr b.nc b.sons)[i]?
    let c ← b.leaf[i]?
    let x ← m.cells c
    some (infoOf b.mesh n, x)

/-- The leaves of variable `v` as seen through `clbegin()`, `clend()`. -/
def readLeaves (m : Mem K E C) (v : Nat) : Option (List (Info × C)) := do
  let r ← m.vars v
  let q ← r.lp
  let l ← m.vecs q
  l.mapM (readAt m)

/-- `get_parameters()` of variable `v`; `none` if there are none. -/
def readParams (m : Mem K E C) (v : Nat) : Option Params := do
  let r ← m.vars v
  let q ← r.params
  m.params q

/-- `(*(v.lbegin() + i))->get_leaf() = x`, H2Matrix.hpp l.141-246 (`set_F`, `set_low_rank_flag`). -/
def writeLeaf (m : Mem K E C) (v i : Nat) (x : C) : Option (Mem K E C) := do
  let r ← m.vars v
  let q ← r.lp
  let l ← m.vecs q
  let p ← l[i]?
  let c ← leafAt m p
  let _ ← m.cells c
  some { m with cells := Function.update m.cells c (some x) }

/-- The operations of a program. -/
inductive Op (K E C : Type) where
  /-- A new mesh with number `k`. -/
  | meshNew (k : Nat) (d : MeshData K E)
  /-- The mesh is destroyed. -/
  | meshFree (k : Nat)
  /-- `BlockClusterTree v;` -/
  | default (v : Nat)
  /-- `BlockClusterTree v(linOp, space);` with a space on mesh `k`. -/
  | build (v k deg : Nat)
  /-- `v.set_parameters(eta, min_cluster_level);` -/
  | setParams (v : Nat) (eta : ℝ) (minLevel : Int)
  /-- `v.init_BlockClusterTree(linOp, space);` -/
  | init (v k deg : Nat)
  /-- `BlockClusterTree v(w);` -/
  | copy (v w : Nat)
  /-- `BlockClusterTree v(std::move(w));` -/
  | move (v w : Nat)
  /-- `v = w;` -/
  | assign (v w : Nat)
  /-- `v = std::move(w);` -/
  | moveAssign (v w : Nat)
  /-- `(*(v.lbegin() + i))->get_leaf() = x;` -/
  | write (v i : Nat) (x : C)
  /-- The end of the scope of `v`. -/
  | destroy (v : Nat)

variable [NormedAddCommGroup E]

/-- `init_BlockClusterTree`, BlockClusterTree.hpp l.121-150, with `appendSubtree` (l.155-182) from `Model/BlockClusterTree`; `new` is the value of
a new `TreeLeaf`. -/
noncomputable def initRoot (new : C) (m : Mem K E C) (self : Option Nat) (r : Root) (k deg : Nat) : Option (Mem K E C × Root) := do
  let s := ensureParameters m r
  let m := s.1
  let r := s.2
  let q ← r.params
  let p ← m.params q
  let d ← meshAlive m (some k)
  let m := { m with params := Function.update m.params q (some { p with bound := some (k, deg) }) }
  let l := newVec m
  let m := l.1
  match initBlockClusterTree d.t d.B p.eta p.minLevel with
  | .node _ _ rows cols cc nr nc sons =>
    if cc = Adm.refine then
      let _ ← resizeSons m r nr
      let m := freeRoot m r
      let c := newCells m (List.replicate (blockLeaves nr nc sons).length new)
      let b := newBlock c.1 ⟨k, nr, nc, sons, c.2⟩
      let r' := { r with gen := some b.2, nr := nr, nc := nc, lp := some l.2, mesh := some k, rows := rows, cols := cols, cc := some cc }
      let m' ← updateLeafPointers b.1 self r'
      some (m', r')
    else
      let c := newCells m [new]
      let r' := { r with leaf := c.2.head?, lp := some l.2, mesh := some k, rows := rows, cols := cols, cc := some cc }
      let m' ← updateLeafPointers c.1 self r'
      some (m', r')
  | .stuck => none

/-- One operation; `new` is the value of a new `TreeLeaf`. -/
noncomputable def step (new : C) (m : Mem K E C) : Op K E C → Option (Mem K E C)
  | .meshNew k d => match m.meshes k with
    | none => some { m with meshes := Function.update m.meshes k (some (d, true)) }
    | some _ => none
  | .meshFree k => match m.meshes k with
    | some (d, true) => some { m with meshes := Function.update m.meshes k (some (d, false)) }
    | _ => none
  | .default v => match m.vars v with
    | none => some { m with vars := Function.update m.vars v (some defaultRoot) }
    | some _ => none
  | .build v k deg => match m.vars v with
    | none => do
      let s ← initRoot new m (some v) defaultRoot k deg
      some { s.1 with vars := Function.update s.1.vars v (some s.2) }
    | some _ => none
  | .setParams v eta minLevel => do
    let r ← m.vars v
    let s := setParameters m r eta minLevel
    some { s.1 with vars := Function.update s.1.vars v (some s.2) }
  | .init v k deg => do
    let r ← m.vars v
    let s ← initRoot new m (some v) r k deg
    some { s.1 with vars := Function.update s.1.vars v (some s.2) }
  | .copy v w => match m.vars v with
    | none => do
      let r ← m.vars w
      let s ← copyRoot m (some v) r
      some { s.1 with vars := Function.update s.1.vars v (some s.2) }
    | some _ => none
  | .move v w => match m.vars v with
    | none => do
      let s ← moveRoot m (some v) w
      some { s.1 with vars := Function.update s.1.vars v (some s.2) }
    | some _ => none
  | .assign v w => do
    let r ← m.vars w
    let s ← copyRoot m none r
    swapRoot s.1 v s.2
  | .moveAssign v w => do
    let s ← moveRoot m none w
    swapRoot s.1 v s.2
  | .write v i x => writeLeaf m v i x
  | .destroy v => do
    let r ← m.vars v
    some { freeRoot m r with vars := Function.update m.vars v none }

/-- A sequence of operations. -/
noncomputable def run (new : C) (m : Mem K E C) (ops : List (Op K E C)) : Option (Mem K E C) := ops.foldlM (step new) m

end Bembel.BlockTree
