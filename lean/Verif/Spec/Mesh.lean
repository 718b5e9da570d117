import Verif.Model.ElementTree
import Mathlib.Data.Sym.Sym2
import Mathlib.Algebra.Order.Field.Basic
/-!
# Specification: the quadtree of a patch

A node is addressed by its patch and the son numbers (innermost first).  Its number within its level is the base-4
reading of patch and son numbers; its square in `[0,1]^2` has the integer position `(posX, posY)` on the
`2^level × 2^level` grid: sons 1 and 2 are on the right, sons 2 and 3 on top.
-/

namespace Bembel
namespace Mesh

/-- `a` is a node of level `l` of the full quadtree over `P` patches. -/
def IsNode (P l : Nat) (a : Addr) : Prop := a.1 < P ∧ a.2.length = l ∧ ∀ x ∈ a.2, x < 4

/-- Number of a node within its level. -/
def pathId (p : Nat) : List Nat → Nat
  | [] => p
  | i :: l => 4 * pathId p l + i

/-- Horizontal grid position. -/
def posX : List Nat → Nat
  | [] => 0
  | i :: l => 2 * posX l + (if i = 1 ∨ i = 2 then 1 else 0)

/-- Vertical grid position. -/
def posY : List Nat → Nat
  | [] => 0
  | i :: l => 2 * posY l + (if i = 2 ∨ i = 3 then 1 else 0)

/-- Edge `i` of patch `p` as unordered pair of corner points (corners are numbered counter-clockwise). -/
def patchEdge {V : Type} (corner : Nat → Nat → V) (p i : Nat) : Sym2 V := s(corner p i, corner p ((i + 1) % 4))

/-- The input of the mesh construction is a conforming collection of `P` patches: the point comparison identifies
corners exactly if they are equal, the four corners of a patch are different, an edge belongs to at most two
patch sides, and two different patches share at most one edge. -/
structure ConformingPatches {V : Type} (near : V → V → Bool) (corner : Nat → Nat → V) (P : Nat) : Prop where
  separated : ∀ p < P, ∀ q < P, ∀ i < 4, ∀ j < 4,
    (near (corner p i) (corner q j) = true ↔ corner p i = corner q j)
  distinct : ∀ p < P, ∀ i < 4, ∀ j < 4, corner p i = corner p j → i = j
  twoSides : ∀ p < P, ∀ q < P, ∀ r < P, ∀ i < 4, ∀ j < 4, ∀ k < 4, patchEdge corner p i = patchEdge corner q j →
    patchEdge corner p i = patchEdge corner r k → (p, i) = (q, j) ∨ (p, i) = (r, k) ∨ (q, j) = (r, k)
  oneEdge : ∀ p < P, ∀ q < P, p ≠ q → ∀ i < 4, ∀ i' < 4, ∀ j < 4, ∀ j' < 4,
    patchEdge corner p i = patchEdge corner q j → patchEdge corner p i' = patchEdge corner q j' → i = i'

/-- The patches are consistently oriented: a common edge is traversed in opposite directions. -/
def OrientedPatches {V : Type} (corner : Nat → Nat → V) (P : Nat) : Prop :=
  ∀ p < P, ∀ q < P, p ≠ q → ∀ i < 4, ∀ j < 4, patchEdge corner p i = patchEdge corner q j →
    corner p i = corner q ((j + 1) % 4) ∧ corner p ((i + 1) % 4) = corner q j

/-- Edge `i` of element `a` as unordered pair of vertex numbers. -/
def elementEdge (vert : Addr → Nat → Nat) (a : Addr) (i : Nat) : Sym2 Nat := s(vert a i, vert a ((i + 1) % 4))

/-- Point of edge `i` of the unit square at parameter `s`, counter-clockwise from corner `i`. -/
def edgePoint {K : Type} [Field K] (i : Nat) (s : K) : K × K :=
  if i = 0 then (s, 0) else if i = 1 then (1, s) else if i = 2 then (1 - s, 1) else (0, 1 - s)

/-- Corner `i` of the unit square, counter-clockwise from the origin. -/
def cornerPoint {K : Type} [Field K] (i : Nat) : K × K := edgePoint i 0

/-- The patch parametrisations `F p` fit together: corner `i` of patch `p` is at `corner p i`, and if two patches share
an edge, the two parametrisations of the edge agree, running in the direction given by the corners. -/
structure Watertight {K V : Type} [Field K] [LinearOrder K] (corner : Nat → Nat → V) (P : Nat)
    (F : Nat → K × K → V) : Prop where
  corners : ∀ p < P, ∀ i < 4, F p (cornerPoint i) = corner p i
  same : ∀ p < P, ∀ q < P, p ≠ q → ∀ i < 4, ∀ j < 4, corner p i = corner q j →
    corner p ((i + 1) % 4) = corner q ((j + 1) % 4) → ∀ s : K, 0 ≤ s → s ≤ 1 →
    F p (edgePoint i s) = F q (edgePoint j s)
  opposite : ∀ p < P, ∀ q < P, p ≠ q → ∀ i < 4, ∀ j < 4, corner p i = corner q ((j + 1) % 4) →
    corner p ((i + 1) % 4) = corner q j → ∀ s : K, 0 ≤ s → s ≤ 1 →
    F p (edgePoint i s) = F q (edgePoint j (1 - s))

/-- horizontal offset of corner `j` -/
def cornerX (j : Nat) : Nat := if j = 1 ∨ j = 2 then 1 else 0

/-- vertical offset of corner `j` -/
def cornerY (j : Nat) : Nat := if j = 2 ∨ j = 3 then 1 else 0

/-- grid position of corner `j` of an element -/
def gridPt (a : Addr) (j : Nat) : Nat × Nat := (posX a.2 + cornerX j, posY a.2 + cornerY j)

/-- Element `a` of level `l` lies along edge `i` of its patch. -/
def OnEdge (l i : Nat) (a : Addr) : Prop :=
  (i = 0 ∧ posY a.2 = 0) ∨ (i = 1 ∧ posX a.2 + 1 = 2 ^ l) ∨ (i = 2 ∧ posY a.2 + 1 = 2 ^ l) ∨ (i = 3 ∧ posX a.2 = 0)

/-- Position of element `a` of level `l` along edge `i` of its patch, counted counter-clockwise from corner `i`. -/
def alongEdge (l i : Nat) (a : Addr) : Nat :=
  if i = 0 then posX a.2 else if i = 1 then posY a.2 else if i = 2 then 2 ^ l - 1 - posX a.2 else 2 ^ l - 1 - posY a.2

/-- `b` is the cell on the other side of edge `i` of cell `a` in the same patch. -/
def GridNeighbour (i : Nat) (a b : Addr) : Prop :=
  (i = 0 ∧ posX b.2 = posX a.2 ∧ posY b.2 + 1 = posY a.2) ∨ (i = 1 ∧ posX b.2 = posX a.2 + 1 ∧ posY b.2 = posY a.2) ∨
  (i = 2 ∧ posX b.2 = posX a.2 ∧ posY b.2 = posY a.2 + 1) ∨ (i = 3 ∧ posX b.2 + 1 = posX a.2 ∧ posY b.2 = posY a.2)

/-- `a` and `b` face each other across edge `i` of patch `a.1`, which is edge `k` of patch `b.1`: the position along
the edge is the same, or mirrored if the two patches traverse the edge in opposite directions. -/
def InterfaceNeighbour {V : Type} (corner : Nat → Nat → V) (l i k : Nat) (a b : Addr) : Prop :=
  OnEdge l i a ∧ OnEdge l k b ∧
  ((corner a.1 i = corner b.1 k ∧ corner a.1 ((i + 1) % 4) = corner b.1 ((k + 1) % 4) ∧
      alongEdge l i a = alongEdge l k b) ∨
    (corner a.1 i = corner b.1 ((k + 1) % 4) ∧ corner a.1 ((i + 1) % 4) = corner b.1 k ∧
      alongEdge l i a + alongEdge l k b + 1 = 2 ^ l))

end Mesh
end Bembel
