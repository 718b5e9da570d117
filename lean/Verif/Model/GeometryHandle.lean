import Mathlib.Logic.Function.Basic
/-!
# Ownership of geometries and ansatz spaces: Geometry/Geometry.hpp, AnsatzSpace/AnsatzSpace.hpp

Variables are natural numbers.  `P` is the type of `PatchVector` values.  `std::make_shared` returns the number of
allocations so far: addresses of different allocations differ (an address is not reused while somebody holds it, and nobody
holds it after the last owner is gone).  `none` is undefined behaviour: dereferencing a null pointer or using an object that does
not exist.
-/

namespace Bembel.Handle

/-- A mesh (`ClusterTree`) as far as it is relevant here: the pointer `geometry_` of its element tree (ElementTree.hpp l.107) and
the refinement level. -/
structure MeshObj where
  geo : Nat
  M : Nat

/-- `AnsatzSpace` with its `SuperSpace`: the shared pointer `mesh_`, the polynomial degree and the knot repetition.  The
function pointers of the super space and the transformation matrix are functions of these. -/
structure SpaceObj where
  mesh : Nat
  P : Nat
  rep : Nat

/-- The memory: allocated patch vectors and meshes, the member `geometry_` of the geometry variables (`some none` is a null
pointer, `none` a variable that does not exist), the ansatz space variables. -/
structure Mem (P : Type) where
  cells : Nat → Option P
  meshes : Nat → Option MeshObj
  next : Nat
  geo : Nat → Option (Option Nat)
  space : Nat → Option SpaceObj

/-- The empty memory. -/
def Mem.empty {P : Type} : Mem P := ⟨fun _ => none, fun _ => none, 0, fun _ => none, fun _ => none⟩

variable {P : Type}

/-- `std::make_shared<PatchVector>(); *ptr = x`. -/
def newCell (m : Mem P) (x : P) : Mem P × Nat :=
  ({ m with cells := Function.update m.cells m.next (some x), next := m.next + 1 }, m.next)

/-- Sets the member `geometry_` of a variable. -/
def setGeo (m : Mem P) (v : Nat) (p : Option Nat) : Mem P := { m with geo := Function.update m.geo v (some p) }

/-- `*geometry_` of variable `v`. -/
def readGeo (m : Mem P) (v : Nat) : Option P := do
  let p ← m.geo v
  let a ← p
  m.cells a

/-- The operations of a program. -/
inductive Op (P : Type) where
  /-- `Geometry v;` -/
  | geoDefault (v : Nat)
  /-- `Geometry v(patches);` -/
  | geoVector (v : Nat) (x : P)
  /-- `v.init_Geometry(file)`, the patches of the file being `x`. -/
  | geoInit (v : Nat) (x : P)
  /-- `Geometry v(w);` -/
  | geoCopy (v w : Nat)
  /-- `Geometry v(std::move(w));` -/
  | geoMove (v w : Nat)
  /-- `v = w;` -/
  | geoAssign (v w : Nat)
  /-- `v = std::move(w);` -/
  | geoMoveAssign (v w : Nat)
  /-- `f(v.get_geometry());` -/
  | geoModify (v : Nat) (f : P → P)
  /-- The end of the scope of `v`. -/
  | geoDestroy (v : Nat)
  /-- `AnsatzSpace s(v, M, P, rep);` -/
  | spaceBuild (s v M P rep : Nat)
  /-- `AnsatzSpace s(t);` -/
  | spaceCopy (s t : Nat)
  /-- `AnsatzSpace s(std::move(t));` -/
  | spaceMove (s t : Nat)
  /-- `s = t;` -/
  | spaceAssign (s t : Nat)
  /-- The end of the scope of `s`. -/
  | spaceDestroy (s : Nat)

/-- Copy constructor, Geometry.hpp l.48-51: the pointer of the new object. -/
def copyGeo (m : Mem P) (w : Nat) : Option (Mem P × Option Nat) := do
  let x ← readGeo m w
  let r := newCell m x
  some (r.1, some r.2)

/-- Move constructor, Geometry.hpp l.41: the pointer of the new object; `std::move` of a shared pointer leaves a null pointer. -/
def moveGeo (m : Mem P) (w : Nat) : Option (Mem P × Option Nat) := do
  let p ← m.geo w
  some (setGeo m w none, p)

/-- `operator=`, Geometry.hpp l.72-75, after the construction of the argument: swaps the pointers; the argument is destroyed with
the old pointer of `v`. -/
def swapGeo (m : Mem P) (v : Nat) (p : Option Nat) : Option (Mem P) := do
  let _ ← m.geo v
  some (setGeo m v p)

/-- `init_AnsatzSpace` and `init_SuperSpace`, AnsatzSpace.hpp l.102-111, SuperSpace.hpp l.127-145: a new mesh that shares the
geometry of `v` (ElementTree.hpp l.107). -/
def buildSpace (m : Mem P) (v M p rep : Nat) : Option (Mem P × SpaceObj) := do
  let g ← m.geo v
  let a ← g
  let _ ← m.cells a
  some ({ m with meshes := Function.update m.meshes m.next (some ⟨a, M⟩), next := m.next + 1 }, ⟨m.next, p, rep⟩)

/-- One operation. -/
def step (m : Mem P) : Op P → Option (Mem P)
  | .geoDefault v => some (setGeo m v none)
  | .geoVector v x => let r := newCell m x; some (setGeo r.1 v (some r.2))
  | .geoInit v x => do
    let _ ← m.geo v
    let r := newCell m x
    some (setGeo r.1 v (some r.2))
  | .geoCopy v w => do
    let r ← copyGeo m w
    some (setGeo r.1 v r.2)
  | .geoMove v w => do
    let r ← moveGeo m w
    some (setGeo r.1 v r.2)
  | .geoAssign v w => do
    let r ← copyGeo m w
    swapGeo r.1 v r.2
  | .geoMoveAssign v w => do
    let r ← moveGeo m w
    swapGeo r.1 v r.2
  | .geoModify v f => do
    let p ← m.geo v
    let a ← p
    let x ← m.cells a
    some { m with cells := Function.update m.cells a (some (f x)) }
  | .geoDestroy v => do
    let _ ← m.geo v
    some { m with geo := Function.update m.geo v none }
  | .spaceBuild s v M p rep => do
    let r ← buildSpace m v M p rep
    some { r.1 with space := Function.update r.1.space s (some r.2) }
  | .spaceCopy s t => do
    let x ← m.space t
    some { m with space := Function.update m.space s (some x) }
  | .spaceMove s t => do
    let x ← m.space t
    some { m with space := Function.update m.space s (some x) }
  | .spaceAssign s t => do
    let x ← m.space t
    let _ ← m.space s
    some { m with space := Function.update m.space s (some x) }
  | .spaceDestroy s => do
    let _ ← m.space s
    some { m with space := Function.update m.space s none }

/-- A sequence of operations. -/
def run (m : Mem P) (ops : List (Op P)) : Option (Mem P) := ops.foldlM step m

/-- What a program sees of an ansatz space: `get_geometry()`, the refinement level, the polynomial degree and the knot repetition. -/
def readSpace (m : Mem P) (s : Nat) : Option (P × Nat × Nat × Nat) := do
  let x ← m.space s
  let k ← m.meshes x.mesh
  let g ← m.cells k.geo
  some (g, k.M, x.P, x.rep)

end Bembel.Handle
