import Verif.Spec.Mesh
import Mathlib.Logic.Relation
/-!
# Specification: degrees of freedom on patch edges and their identification

A tensor product space of dimension `dx × dy` on a patch has one dof per grid position `(x, y)`, `x < dx`, `y < dy`.
Edge `i` of the unit square runs counter-clockwise from corner `i` to corner `i + 1`; `s` counts the dofs along it.
-/

namespace Bembel
namespace Glue

open Mesh

/-- Number of dofs along edge `i`. -/
def edgeLength (dx dy i : Nat) : Nat := if i = 0 ∨ i = 2 then dx else dy

/-- Horizontal grid position of the `s`-th dof (counter-clockwise) on edge `i`. -/
def edgeX (dx i s : Nat) : Nat := if i = 0 then s else if i = 1 then dx - 1 else if i = 2 then dx - 1 - s else 0

/-- Vertical grid position of the `s`-th dof (counter-clockwise) on edge `i`. -/
def edgeY (dy i s : Nat) : Nat := if i = 0 then 0 else if i = 1 then s else if i = 2 then dy - 1 else dy - 1 - s

/-- Grid position `(x, y)` is on edge `i`. -/
def DofOnEdge (dx dy i x y : Nat) : Prop :=
  (i = 0 ∧ y = 0) ∨ (i = 1 ∧ x = dx - 1) ∨ (i = 2 ∧ y = dy - 1) ∨ (i = 3 ∧ x = 0)

/-- Number of the dof at position `(x, y)` of patch `p`, for `n × n` dofs per patch. -/
def dofIndex (n p x y : Nat) : Nat := p * (n * n) + y * n + x

/-- Number of the `s`-th dof on edge `i` of patch `p`, counter-clockwise. -/
def edgeDof (n p i s : Nat) : Nat := dofIndex n p (edgeX n i s) (edgeY n i s)

/-- Dofs `d` and `e` face each other across a common edge of two patches (traversed in opposite directions). -/
def Identified {V : Type} (corner : Nat → Nat → V) (P n d e : Nat) : Prop :=
  ∃ p q i k s, p < P ∧ q < P ∧ p ≠ q ∧ i < 4 ∧ k < 4 ∧ patchEdge corner p i = patchEdge corner q k ∧ s < n ∧
    d = edgeDof n p i s ∧ e = edgeDof n q k (n - 1 - s)

/-- Linked by a chain of identifications. -/
def Linked {V : Type} (corner : Nat → Nat → V) (P n : Nat) : Nat → Nat → Prop :=
  Relation.EqvGen (Identified corner P n)

/-- Parameter of the point that dof `d` belongs to (`n × n` equidistant points per patch). -/
def dofParam (K : Type) [Field K] (n d : Nat) : K × K :=
  (((d % (n * n) % n : Nat) : K) / ((n - 1 : Nat) : K), ((d % (n * n) / n : Nat) : K) / ((n - 1 : Nat) : K))

/-- Divergence conforming space on `P` patches: the first component has `(m + 1) × m` dofs per patch, the second one
`m × (m + 1)`, and all dofs of the first component come first.  Number of the `s`-th dof of the component normal to
edge `i` of patch `p`, counter-clockwise along the edge. -/
def normalDof (m P p i s : Nat) : Nat :=
  if i = 1 ∨ i = 3 then p * (m * (m + 1)) + edgeY m i s * (m + 1) + edgeX (m + 1) i s
  else P * (m * (m + 1)) + p * (m * (m + 1)) + edgeY (m + 1) i s * m + edgeX m i s

/-- Outward flux per unit of the normal component of a vector field through edge `i`: the component normal to edges
1 and 3 is the first one, pointing out of edge 1 and into edge 3, and the second one points out of edge 2 and into
edge 0. -/
def outwardSign (i : Nat) : Int := if i = 1 ∨ i = 2 then 1 else -1

/-- Dofs of the normal components of two patches which face each other across a common edge. -/
def NormalPaired {V : Type} (corner : Nat → Nat → V) (P m p i q k s d e : Nat) : Prop :=
  p < P ∧ q < P ∧ p ≠ q ∧ i < 4 ∧ k < 4 ∧ patchEdge corner p i = patchEdge corner q k ∧ s < m ∧
    d = normalDof m P p i s ∧ e = normalDof m P q k (m - 1 - s)

/-- The triplets `(row, column, value)` are a `pre × post` matrix with exactly one entry in every row and at least one
in every column, and two rows meet in the same column exactly if the row numbers are related by `Same`. -/
structure GlueMatrix (pre post : Nat) (trips : List (Nat × Nat × Int)) (Same : Nat → Nat → Prop) : Prop where
  rows : (trips.map fun t => t.1).Perm (List.range pre)
  cols : ∀ t ∈ trips, t.2.1 < post
  onto : ∀ c < post, ∃ t ∈ trips, t.2.1 = c
  same : ∀ t ∈ trips, ∀ u ∈ trips, (t.2.1 = u.2.1 ↔ t.1 = u.1 ∨ Same t.1 u.1)

end Glue
end Bembel
