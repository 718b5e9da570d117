import Verif.Model.ElementTree
import Verif.Model.Util
/-!
# Model of the parts of `ClusterTree/ElementTree.hpp` that use the geometry

`F p x` is `(*geometry_)[p].eval(x)`; the surface lives in `W` (`Vector3d` in the code).
-/

namespace Bembel
namespace Mesh

open Basis

section
variable {K : Type} [Field K] {W : Type}

/-- Evaluation points of the four vertices, ElementTree.hpp l.213-221: `j`-th assignment in the loop body. -/
def vertexParam (t : Tree K) (a : Addr) (j : Nat) : K × K :=
  let h := getH t a
  match j with
  | 0 => ((t.llc a).1, (t.llc a).2)
  | 1 => ((t.llc a).1 + h, (t.llc a).2)
  | 2 => ((t.llc a).1 + h, (t.llc a).2 + h)
  | _ => ((t.llc a).1, (t.llc a).2 + h)

/-- One assignment `pts.col(vertices_[j]) = eval(...)` and the counter `++idct(vertices_[j])`,
ElementTree.hpp l.213-227; a column outside of the matrix is `none`.  (In the code the four assignments come first
and then the four counters; they act on different variables.) -/
def pointListStep (t : Tree K) (F : Nat → K × K → W) (a : Addr) (st : (Nat → W) × (Nat → Nat)) (j : Nat) :
    Option ((Nat → W) × (Nat → Nat)) :=
  let v := t.vert a j
  if v < t.nPoints then some (upd st.1 v (F (t.patch a) (vertexParam t a j)), upd st.2 v (st.2 v + 1)) else none

/-- `generatePointList`, ElementTree.hpp l.206-230: point columns and vertex counts.  `junk` is the uninitialised
contents of the matrix. -/
def generatePointList (t : Tree K) (F : Nat → K × K → W) (junk : Nat → W) :
    Option ((Nat → W) × (Nat → Nat)) := do
  let l ← elements t
  l.foldlM (fun st a => (List.range 4).foldlM (pointListStep t F a) st) (junk, fun _ => 0)

/-- One iteration over `j` in `generatePatchBoundaryLabels`, ElementTree.hpp l.472-478; the second component says
whether the loop was left by `break`. -/
def labelStep (t : Tree K) (a : Addr) (st : Int × Bool) (j : Nat) : Int × Bool :=
  if st.2 then st
  else
    match t.adj a j with
    | none => (-1, true)
    | some b => if t.patch b ≠ t.patch a then (st.1 + 1, false) else st

/-- `generatePatchBoundaryLabels`, ElementTree.hpp l.467-482. -/
def generatePatchBoundaryLabels (t : Tree K) : Option (List Int) := do
  let l ← elements t
  some (l.map fun a => (forLoop 4 (labelStep t a) (0, false)).1)

/-- `identifyPatch`, ElementTree.hpp l.492-502. -/
def identifyPatch (t : Tree K) (pn : Nat) : Option (List Int) := do
  if pn < t.nPatches then
    let l ← elements t
    some (l.map fun a => if t.patch a = pn then 1 else 0)
  else none

end

section
variable {W : Type} [NormedAddCommGroup W] [NormedSpace ℝ W]

open Util

/-- Four balls enclosed pairwise, ElementTree.hpp l.375-380 and l.386-393. -/
noncomputable def encloseFour (b0 b1 b2 b3 : Ball W) : Option (Ball W) := do
  let x ← computeEnclosingBall b0 b2
  let y ← computeEnclosingBall b1 b3
  computeEnclosingBall x y

/-- `computeElementEnclosings_recursion`, ElementTree.hpp l.368-396.  `fuel` bounds the depth of the recursion. -/
noncomputable def encloseRec (refined : Addr → Bool) (vert : Addr → Nat → Nat) (pts : Nat → W) :
    Nat → Addr → (Addr → Ball W) → Option (Addr → Ball W)
  | 0, _, _ => none
  | fuel + 1, a, B =>
    if refined a then do
      let B ← (List.range 4).foldlM (fun B i => encloseRec refined vert pts fuel (son a i) B) B
      let b ← encloseFour (B (son a 0)) (B (son a 1)) (B (son a 2)) (B (son a 3))
      some (updA B a b)
    else do
      let b ← encloseFour ⟨pts (vert a 0), 0⟩ ⟨pts (vert a 1), 0⟩ ⟨pts (vert a 2), 0⟩ ⟨pts (vert a 3), 0⟩
      some (updA B a b)

/-- `computeElementEnclosings`, ElementTree.hpp l.354-360; `B` are the balls stored before. -/
noncomputable def computeElementEnclosings (t : Tree ℝ) (F : Nat → ℝ × ℝ → W) (junk : Nat → W)
    (B : Addr → Ball W) : Option (Addr → Ball W) := do
  let pts ← generatePointList t F junk
  (List.range t.nPatches).foldlM (fun B i => encloseRec t.refined t.vert pts.1 (t.maxLevel + 1) (i, []) B) B

end
end Mesh
end Bembel
