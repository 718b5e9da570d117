import Mathlib.Algebra.Field.Defs
import Verif.Model.Bernstein
/-!
# Model of `ClusterTree/ElementTreeNode.hpp` and `ClusterTree/ElementTree.hpp`

`ElementTreeNode`s live in vectors that are resized exactly once (`root_.sons_` to the number of patches, the
`sons_` of a refined node to 4), so addresses are stable: the address of a node is its patch number and the list
of son numbers, last one first.  The member variables are one function per field from addresses to values.
Lower left corners are exact field elements.  `int` overflow (levels ≥ 31, more than 2^31 elements) is not
modelled here.  A null pointer is `none`.
-/

namespace Bembel
namespace Mesh

open Basis

/-- Address of a tree node: patch, son numbers (innermost first). -/
abbrev Addr := Nat × List Nat

/-- Address of `sons_[i]`. -/
def son (a : Addr) (i : Nat) : Addr := (a.1, i :: a.2)

/-- Write to one address. -/
def updA {α : Type} (f : Addr → α) (a : Addr) (v : α) : Addr → α := fun b => if b = a then v else f b

/-- Members of `ElementTree` (ClusterTree/ElementTree.hpp l.743-750) and of its nodes
(ClusterTree/ElementTreeNode.hpp l.267-277) that concern the mesh; `refined a` is `sons_.size() != 0`. -/
structure Tree (K : Type) where
  refined : Addr → Bool
  adj : Addr → Nat → Option Addr
  vert : Addr → Nat → Nat
  llc : Addr → K × K
  prev : Addr → Option Addr
  next : Addr → Option Addr
  id : Addr → Nat
  level : Addr → Nat
  patch : Addr → Nat
  pfirst : Option Addr
  plast : Option Addr
  nPatches : Nat
  maxLevel : Nat
  nPoints : Nat
  nElements : Nat

/-- `Constants::llcs`, util/Constants.hpp l.28. -/
def llcs {K : Type} [Field K] (c i : Nat) : K :=
  if c = 0 then (if i = 1 ∨ i = 2 then 1 / 2 else 0) else (if i = 2 ∨ i = 3 then 1 / 2 else 0)

/-! ## Topology -/

/-- The key of an edge: sorted vertex numbers, ElementTree.hpp l.591-593 and l.601-603. -/
def edgeKey (vert : Addr → Nat → Nat) (a : Addr) (j : Nat) : Nat × Nat :=
  let v1 := vert a j
  let v2 := vert a ((j + 1) % 4)
  (if v1 < v2 then v1 else v2, if v1 < v2 then v2 else v1)

/-- State of `updateTopology`: the map of edges and the neighbour pointers. -/
abbrev TopoState := (Nat × Nat → Option Addr) × (Addr → Nat → Option Addr)

/-- Write one neighbour pointer. -/
def setAdj (adj : Addr → Nat → Option Addr) (a : Addr) (j : Nat) (b : Addr) : Addr → Nat → Option Addr :=
  fun a' j' => if a' = a ∧ j' = j then some b else adj a' j'

/-- Body of the double loop in `updateTopology`, ElementTree.hpp l.590-612. -/
def topoStep (vert : Addr → Nat → Nat) (e : Addr) (st : TopoState) (j : Nat) : TopoState :=
  let e1 := edgeKey vert e j
  match st.1 e1 with
  | some f =>
    let adj := setAdj st.2 e j f
    match (List.range 4).find? (fun k => edgeKey vert f k = e1) with
    | some k => (st.1, setAdj adj f k e)
    | none => (st.1, adj)
  | none => (fun p => if p = e1 then some e else st.1 p, st.2)

/-- `updateTopology`, ElementTree.hpp l.584-615; returns the new neighbour pointers. -/
def updateTopology (vert : Addr → Nat → Nat) (els : List Addr) (adj : Addr → Nat → Option Addr) :
    Addr → Nat → Option Addr :=
  (els.foldl (fun st e => forLoop 4 (topoStep vert e) st) ((fun _ => none), adj)).2

/-! ## Refinement -/

/-- `refNeighbours[i]`, ElementTree.hpp l.628-642: the first `j` with `adj[i]->adj[j] == cur`; initially 0. -/
def refNeighbour (adj : Addr → Nat → Option Addr) (cur b : Addr) : Nat :=
  ((List.range 4).find? fun j => adj b j = some cur).getD 0

/-- State of the point loop: `ptIds`, number of points, `elements`. -/
abbrev PointState := (Nat → Nat) × Nat × List Addr

/-- Body of the loop that determines new points, ElementTree.hpp l.644-668. -/
def pointStep {K : Type} (t : Tree K) (cur : Addr) (st : PointState) (i : Nat) : PointState :=
  match t.adj cur i with
  | some b =>
    if t.refined b then
      let r := refNeighbour t.adj cur b
      (upd st.1 i (t.vert (son b r) ((r + 1) % 4)), st.2.1, st.2.2 ++ [son b r, son b ((r + 1) % 4)])
    else (upd st.1 i st.2.1, st.2.1 + 1, st.2.2)
  | none => (upd st.1 i st.2.1, st.2.1 + 1, st.2.2)

/-- Vertex `j` of son `i`, ElementTree.hpp l.714-734; `v` are the vertices of the father, `p` are `ptIds`. -/
def sonVertex (v p : Nat → Nat) (i j : Nat) : Nat :=
  match i, j with
  | 0, 0 => v 0
  | 0, 1 => p 0
  | 0, 2 => p 4
  | 0, 3 => p 3
  | 1, 0 => p 0
  | 1, 1 => v 1
  | 1, 2 => p 1
  | 1, 3 => p 4
  | 2, 0 => p 4
  | 2, 1 => p 1
  | 2, 2 => v 2
  | 2, 3 => p 2
  | 3, 0 => p 3
  | 3, 1 => p 4
  | 3, 2 => p 2
  | 3, 3 => v 3
  | _, _ => 0

/-- Part of `ElementTree` that is changed by the linked list code. -/
structure Links where
  prev : Addr → Option Addr
  next : Addr → Option Addr
  pfirst : Option Addr
  plast : Option Addr

/-- Linked list code in iteration `i` of the loop over the new sons, ElementTree.hpp l.682-702. -/
def linkStep (cur : Addr) (l : Links) (i : Nat) : Links :=
  let s := son cur i
  let l :=
    if i = 0 then
      let p := l.prev cur
      let next := match p with
        | some q => updA l.next q (some s)
        | none => l.next
      let prev := updA (updA l.prev s p) cur none
      { l with prev := prev, next := next, pfirst := if l.pfirst = some cur then some s else l.pfirst }
    else { l with prev := updA l.prev s (some (son cur (i - 1))) }
  if i = 3 then
    let n := l.next cur
    let prev := match n with
      | some q => updA l.prev q (some s)
      | none => l.prev
    let next := updA (updA l.next s n) cur none
    { l with prev := prev, next := next, plast := if l.plast = some cur then some s else l.plast }
  else { l with next := updA l.next s (some (son cur (i + 1))) }

/-- The four sons of a node in order. -/
def sons (a : Addr) : List Addr := (List.range 4).map (son a)

/-- Value of a field after setting it for the four sons of `cur`. -/
def setSons {α : Type} (f : Addr → α) (cur : Addr) (g : Nat → α) : Addr → α :=
  forLoop 4 (fun f i => updA f (son cur i) (g i)) f

variable {K : Type} [Field K]

/-- `refineLeaf`, ElementTree.hpp l.624-739. -/
def refineLeaf (t : Tree K) (cur : Addr) : Tree K :=
  if t.refined cur then t
  else
    let pts := forLoop 4 (pointStep t cur) (fun _ => 0, t.nPoints, [])
    let p := upd pts.1 4 pts.2.1
    let links := forLoop 4 (linkStep cur) ⟨t.prev, t.next, t.pfirst, t.plast⟩
    let els := pts.2.2 ++ sons cur
    let vert := setSons t.vert cur (fun i => sonVertex (t.vert cur) p i)
    let adj := setSons t.adj cur (fun _ _ => none)
    { t with
      refined := updA t.refined cur true
      nPoints := pts.2.1 + 1
      nElements := t.nElements + 3
      maxLevel := if t.maxLevel < t.level cur + 1 then t.level cur + 1 else t.maxLevel
      prev := links.prev
      next := links.next
      pfirst := links.pfirst
      plast := links.plast
      patch := setSons t.patch cur (fun _ => t.patch cur)
      level := setSons t.level cur (fun _ => t.level cur + 1)
      id := setSons t.id cur (fun i => 4 * t.id cur + i)
      llc := setSons t.llc cur (fun i =>
        ((t.llc cur).1 + llcs 0 i / (2 ^ t.level cur : K), (t.llc cur).2 + llcs 1 i / (2 ^ t.level cur : K)))
      vert := vert
      adj := updateTopology vert els adj }

/-- `refineUniformly_recursion`, ElementTree.hpp l.169-177, on a node that is not the root.  `fuel` bounds the
recursion depth (tree height); running out of fuel leaves the tree unchanged and does not happen for
`fuel` > height. -/
def refineRec : Nat → Tree K → Addr → Tree K
  | 0, t, _ => t
  | fuel + 1, t, a =>
    if t.refined a then forLoop 4 (fun t i => refineRec fuel t (son a i)) t
    else refineLeaf t a

/-- `refineUniformly`, ElementTree.hpp l.182-185: recursion at the root.  Without patches the root itself would be
refined as a leaf, which reads the empty vector `adjcents_`: undefined (`none`). -/
def refineUniformly (t : Tree K) : Option (Tree K) :=
  if t.nPatches = 0 then none
  else some (forLoop t.nPatches (fun u i => refineRec (t.maxLevel + 1) u (i, [])) t)

/-! ## Initialisation -/

/-- State of the corner loop: unique points, vertex numbers, number of points. -/
structure CornerState (V : Type) where
  uniquePts : List V
  vert : Addr → Nat → Nat
  nPoints : Nat

/-- Body of the corner loop, ElementTree.hpp l.140-154: `v` is the image of corner `j` of patch `i`; `near` is
`(u - v).norm() < pt_comp_tolerance`. -/
def cornerStep {V : Type} (near : V → V → Bool) (corner : Nat → Nat → V) (i : Nat) (st : CornerState V)
    (j : Nat) : CornerState V :=
  let v := corner i j
  let index := st.uniquePts.findIdx fun u => near u v
  if index ≠ st.uniquePts.length then
    { st with vert := fun a k => if a = (i, []) ∧ k = j then index else st.vert a k }
  else
    ⟨st.uniquePts ++ [v], fun a k => if a = (i, []) ∧ k = j then st.nPoints else st.vert a k, st.nPoints + 1⟩

/-- All corner loops. -/
def initCorners {V : Type} (near : V → V → Bool) (corner : Nat → Nat → V) (P : Nat) : CornerState V :=
  forLoop P (fun st i => forLoop 4 (cornerStep near corner i) st) ⟨[], fun _ _ => 0, 0⟩

/-- Patch level part of `init_ElementTree`, ElementTree.hpp l.106-158. -/
def initPatches {V : Type} (near : V → V → Bool) (corner : Nat → Nat → V) (P maxLevel : Nat) : Tree K :=
  let c := initCorners near corner P
  let patches : List Addr := (List.range P).map fun i => (i, [])
  { refined := fun _ => false
    adj := updateTopology c.vert patches (fun _ _ => none)
    vert := c.vert
    llc := fun _ => (0, 0)
    prev := fun a => if a.2 = [] ∧ a.1 ≠ 0 then some (a.1 - 1, []) else none
    next := fun a => if a.2 = [] ∧ a.1 + 1 < P then some (a.1 + 1, []) else none
    id := fun a => a.1
    level := fun _ => 0
    patch := fun a => a.1
    pfirst := if P = 0 then none else some (0, [])
    plast := if P = 0 then none else some (P - 1, [])
    nPatches := P
    maxLevel := maxLevel
    nPoints := c.nPoints
    nElements := P }

/-- `init_ElementTree`, ElementTree.hpp l.105-161. -/
def initElementTree {V : Type} (near : V → V → Bool) (corner : Nat → Nat → V) (P maxLevel : Nat) :
    Option (Tree K) :=
  (List.range maxLevel).foldlM (fun t _ => refineUniformly t) (initPatches near corner P maxLevel)

/-! ## Iteration -/

/-- `for (it = first; it != last; ++it)` along `next_`, ElementTreeNode.hpp l.52-55, l.69-78: the visited nodes.
`none` = null pointer dereference, or `fuel` steps were not enough. -/
def walk (next : Addr → Option Addr) : Nat → Option Addr → Option Addr → Option (List Addr)
  | fuel, p, q =>
    if p = q then some []
    else
      match fuel, p with
      | 0, _ => none
      | _, none => none
      | fuel + 1, some a => do
        let l ← walk next fuel (next a) q
        some (a :: l)

/-- Iterating over all elements from `pbegin()` to `pend()`, ElementTree.hpp l.298-309. -/
def elements (t : Tree K) : Option (List Addr) := do
  let last ← t.plast
  walk t.next (t.nElements + 1) t.pfirst (t.next last)

/-- `front()` (`i = 0`) and `back()` (`i = 3`), ElementTreeNode.hpp l.207-222. -/
def descend (refined : Addr → Bool) (i : Nat) : Nat → Addr → Addr
  | 0, a => a
  | fuel + 1, a => if refined a then descend refined i fuel (son a i) else a

/-- Iterating over a cluster from `cbegin()` to `cend()`, ElementTreeNode.hpp l.231-245. -/
def clusterElements (t : Tree K) (a : Addr) : Option (List Addr) :=
  walk t.next (t.nElements + 1) (some (descend t.refined 0 (t.maxLevel + 1) a))
    (t.next (descend t.refined 3 (t.maxLevel + 1) a))

/-- `generateElementList`, ElementTree.hpp l.240-249: column `e` of the result is the vertex list of the `e`-th
element visited. -/
def generateElementList (t : Tree K) : Option (List (List Nat)) := do
  let l ← elements t
  some (l.map fun a => (List.range 4).map (t.vert a))

/-- `get_h`, ElementTreeNode.hpp l.193. -/
def getH (t : Tree K) (a : Addr) : K := 1 / 2 ^ t.level a

/-- `mapToReferenceElement`, ElementTreeNode.hpp l.170-174. -/
def mapToReferenceElement (t : Tree K) (a : Addr) (x : K × K) : K × K :=
  ((x.1 - (t.llc a).1) / getH t a, (x.2 - (t.llc a).2) / getH t a)

/-- `referenceMidpoint`, ElementTreeNode.hpp l.181-183. -/
def referenceMidpoint (t : Tree K) (a : Addr) : K × K :=
  ((t.llc a).1 + 1 / 2 * getH t a, (t.llc a).2 + 1 / 2 * getH t a)

/-- `compute_global_id`, ElementTree.hpp l.561-565 (natural numbers; see C27 for overflow). -/
def computeGlobalId (t : Tree K) (a : Addr) : Nat :=
  t.nPatches * ((2 ^ t.level a * 2 ^ t.level a - 1) / 3) + t.id a

/-- Body of the loop in `computeReorderingVector`, ElementTree.hpp l.546-557; the vector has `nElements` entries,
a write outside is `none`.  `flr` is `std::floor` followed by the conversion to `int`. -/
def reorderStep (flr : K → Int) (t : Tree K) (out : Nat → Nat) (a : Addr) : Option (Nat → Nat) :=
  let h := getH t a
  let mid := ((t.llc a).1 + 1 / 2 * h, (t.llc a).2 + 1 / 2 * h)
  let x := flr (mid.1 / h)
  let y := flr (mid.2 / h)
  let n := 2 ^ t.maxLevel
  let tp : Int := (t.patch a * (n * n) : Nat) + y * (n : Nat) + x
  if 0 ≤ tp ∧ tp < t.nElements then some (upd out tp.toNat (t.id a)) else none

/-- `computeReorderingVector`, ElementTree.hpp l.544-559; `junk` = initial contents (zeros). -/
def computeReorderingVector (flr : K → Int) (t : Tree K) : Option (Nat → Nat) := do
  let l ← elements t
  l.foldlM (reorderStep flr t) (fun _ => 0)

/-- The loop over `k`, ElementTree.hpp l.520-524: the first edge of `b` whose neighbour has the given id, else 4. -/
def partnerEdge (t : Tree K) (b : Addr) (i : Nat) : Nat :=
  ((List.range 4).find? fun k =>
    match t.adj b k with
    | some c => t.id c = i
    | none => false).getD 4

/-- `patchTopologyInfo`, ElementTree.hpp l.510-533; entries `(id, neighbour id or -1, j, k or -1)`. -/
def patchTopologyInfo (t : Tree K) : List (Int × Int × Int × Int) :=
  (List.range t.nPatches).flatMap fun i => (List.range 4).flatMap fun j =>
    match t.adj (i, []) j with
    | some b =>
      if t.id (i, []) < t.id b then
        [((t.id (i, []) : Int), (t.id b : Int), (j : Int), (partnerEdge t b (t.id (i, [])) : Int))]
      else []
    | none => [((t.id (i, []) : Int), -1, (j : Int), -1)]

end Mesh
end Bembel
